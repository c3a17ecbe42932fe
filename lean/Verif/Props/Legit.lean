import Verif.Proofs.LegitSem
import Verif.Props.Grammar

/-!
C99 (the style of the invariant in files and options) and C100 (assumptions and invariants in files):
src/prot-xfile.leg:150-161, 262-298, 596-690, src/prot-xfile.cc:797-865 and 905-974,
src/prot-ofile.cc:275-362 and 394-412, src/opt.cc:48-133.
-/

namespace Verif.Props
open Verif.Model Verif.Spec Verif.Proofs

/-- What is between the outer parentheses of the text of a style. -/
def styleInner (y : Style) : Scope → List Char
  | .direct => "future & ".toList ++ styleWord y
  | .shadow => "(future & ".toList ++ styleWord y ++ ") % puppet".toList
  | .future => "future & future ".toList ++ styleWord y

theorem style_inner (y : Style) (c : Scope) (x : List Char) :
    styleText y c ++ x = '(' :: (styleInner y c ++ ')' :: x) := by
  cases c <;> cases y <;> rfl

theorem mode_read (y : Style) (c : Scope) (h : y = .closed → c = .direct) (x : List Char) :
    legitModeP (styleInner y c ++ ')' :: x) = some ((y, c), ')' :: x) := by
  cases y <;> cases c <;> first | rfl | (exact absurd (h rfl) (by decide))

theorem mode_none (c : Scope) (h : c ≠ .direct) (x : List Char) :
    legitModeP (styleInner .closed c ++ ')' :: x) = none := by
  cases c <;> first | rfl | (exact absurd rfl h)

theorem assume_read (x : List Char) :
    assumeT ("assume & closed".toList ++ ')' :: x) = some ((), ')' :: x) := rfl

theorem ows_head {w x : List Char} (h : ∃ c u, w = c :: u ∧ isBlank c = false ∧ c ≠ '/') :
    ows (w ++ x) = w ++ x := by
  obtain ⟨c, u, rfl, h1, h2⟩ := h
  exact ows_cons h1 h2

theorem style_start (y : Style) (c : Scope) :
    ∃ d u, styleInner y c = d :: u ∧ isBlank d = false ∧ d ≠ '/' := by
  cases c
  · exact ⟨'f', _, rfl, by decide, by decide⟩
  · exact ⟨'(', _, rfl, by decide, by decide⟩
  · exact ⟨'f', _, rfl, by decide, by decide⟩

/-- A statement with a head in parentheses and an expression in parentheses. -/
theorem headed_read {α : Type} {isPred : String → Bool} {h : List Char → Option (α × List Char)}
    {w : List Char} {a : α} (hw : ∀ x, h (w ++ ')' :: x) = some (a, ')' :: x))
    (hws : ∃ c u, w = c :: u ∧ isBlank c = false ∧ c ≠ '/') {b d : List Char}
    (hb : ∀ c ∈ b, isBlank c = true) (hd : ∀ c ∈ d, isBlank c = true) {t : List Char} {T : Ex × Bool}
    (ht : ∀ r, Fol isPred .expr r → Reads isPred .expr (t ++ r) (some (T, r)))
    (hts : ∃ c u, t = c :: u ∧ startC c = true) (rest : List Char) :
    AtLast (fun k => headedP isPred h k
      ('(' :: (w ++ ')' :: (b ++ '(' :: (t ++ ')' :: (d ++ ';' :: rest)))))) (some ((a, T.1), rest)) := by
  obtain ⟨K, hK⟩ := ht (')' :: (d ++ ';' :: rest)) (fol_close (by simp))
  refine ⟨K, fun k hk => ?_⟩
  have hp := hK k hk
  have h1 : ∀ s : List Char, lit "(" ('(' :: s) = some s := fun s => rfl
  have h2 : ∀ s : List Char, lit ")" (')' :: s) = some s := fun s => rfl
  have h3 : ∀ s : List Char, ows (')' :: s) = ')' :: s := fun s => ows_cons (by decide) (by decide)
  have h4 : ows (t ++ ')' :: (d ++ ';' :: rest)) = t ++ ')' :: (d ++ ';' :: rest) := by
    obtain ⟨c, u, rfl, hc⟩ := hts
    exact ows_start hc
  have h5 : ows (b ++ '(' :: (t ++ ')' :: (d ++ ';' :: rest))) = '(' :: (t ++ ')' :: (d ++ ';' :: rest)) := by
    rw [ows_blanks hb]; exact ows_cons (by decide) (by decide)
  have h6 : ows (d ++ ';' :: rest) = ';' :: rest := by
    rw [ows_blanks hd]; exact ows_cons (by decide) (by decide)
  simp only [headedP, h1, Option.bind_some, ows_head hws, hw, h3, h2, h5, h4, hp, h6]
  rfl

theorem ows_paren {a s : List Char} (h : ∀ c ∈ a, isBlank c = true) : ows (a ++ '(' :: s) = '(' :: s := by
  rw [ows_blanks h]; exact ows_cons (by decide) (by decide)

theorem assume_lit : "\n(assume & closed)\n  (".toList =
    "\n".toList ++ '(' :: ("assume & closed".toList ++ ')' :: ("\n  ".toList ++ ['('])) := by decide +kernel

theorem assume_lit_pc : "\n  (assume & closed)\n    (".toList =
    "\n  ".toList ++ '(' :: ("assume & closed".toList ++ ')' :: ("\n    ".toList ++ ['('])) := by decide +kernel

theorem end_lit : ")\n  ;".toList = ')' :: ("\n  ".toList ++ [';']) := by decide +kernel

theorem assume_global (t rest : List Char) : globalAssumeText t ++ rest =
    "\n".toList ++ '(' :: ("assume & closed".toList ++ ')' ::
      ("\n  ".toList ++ '(' :: (t ++ ')' :: ("\n  ".toList ++ ';' :: rest)))) := by
  have h : globalAssumeText t = ("\n".toList ++ '(' :: ("assume & closed".toList ++ ')' ::
      ("\n  ".toList ++ ['(']))) ++ t ++ ')' :: ("\n  ".toList ++ [';']) :=
    congrArg₂ (fun a b => a ++ t ++ b) assume_lit end_lit
  rw [h]
  simp only [List.append_assoc, List.cons_append, List.nil_append]

theorem assume_pc (t rest : List Char) : pcAssumeText t ++ rest =
    "\n  ".toList ++ '(' :: ("assume & closed".toList ++ ')' ::
      ("\n    ".toList ++ '(' :: (t ++ ')' :: ([] ++ ';' :: rest)))) := by
  have h : pcAssumeText t = ("\n  ".toList ++ '(' :: ("assume & closed".toList ++ ')' ::
      ("\n    ".toList ++ ['(']))) ++ t ++ [')', ';'] :=
    congrArg₂ (fun a b => a ++ t ++ b) assume_lit_pc (by decide +kernel)
  rw [h]
  simp only [List.append_assoc, List.cons_append, List.nil_append]

/-- Reading of the statements that are written. -/
theorem stmts_read {isPred : String → Bool} {t : List Char} {T : Ex × Bool}
    (ht : ∀ r, Fol isPred .expr r → Reads isPred .expr (t ++ r) (some (T, r)))
    (hts : ∃ c u, t = c :: u ∧ startC c = true) (rest : List Char) :
    (∀ y c, (y = .closed → c = .direct) →
      AtLast (fun k => legitStmtP isPred k (ows (globalLegitText y c t ++ rest))) (some (((y, c), T.1), rest)) ∧
      AtLast (fun k => legitStmtP isPred k (ows (pcLegitText y c t ++ rest))) (some (((y, c), T.1), rest))) ∧
    AtLast (fun k => assumeStmtP isPred k (ows (globalAssumeText t ++ rest))) (some (((), T.1), rest)) ∧
    AtLast (fun k => assumeStmtP isPred k (ows (pcAssumeText t ++ rest))) (some (((), T.1), rest)) := by
  have has : ∃ c u, "assume & closed".toList = c :: u ∧ isBlank c = false ∧ c ≠ '/' :=
    ⟨'a', _, rfl, by decide, by decide⟩
  refine ⟨fun y c hc => ⟨?_, ?_⟩, ?_, ?_⟩
  · have := headed_read (isPred := isPred) (h := legitModeP) (mode_read y c hc) (style_start y c)
      (b := "\n  ".toList) (d := "\n  ".toList) (by decide) (by decide) ht hts rest
    have e1 := ows_paren (a := "\n".toList) (s := styleInner y c ++ ')' :: ("\n  ".toList ++
        '(' :: (t ++ ')' :: ("\n  ".toList ++ ';' :: rest)))) (by decide)
    rw [← style_inner] at e1
    rw [show globalLegitText y c t ++ rest = "\n".toList ++ (styleText y c ++ ("\n  ".toList ++
        '(' :: (t ++ ')' :: ("\n  ".toList ++ ';' :: rest)))) by simp [globalLegitText], e1, style_inner]
    exact this
  · have := headed_read (isPred := isPred) (h := legitModeP) (mode_read y c hc) (style_start y c)
      (b := "\n    ".toList) (d := []) (by decide) (by simp) ht hts rest
    have e1 := ows_paren (a := "\n  ".toList) (s := styleInner y c ++ ')' :: ("\n    ".toList ++
        '(' :: (t ++ ')' :: ([] ++ ';' :: rest)))) (by decide)
    rw [← style_inner] at e1
    rw [show pcLegitText y c t ++ rest = "\n  ".toList ++ (styleText y c ++ ("\n    ".toList ++
        '(' :: (t ++ ')' :: ([] ++ ';' :: rest)))) by simp [pcLegitText], e1, style_inner]
    exact this
  · have := headed_read (isPred := isPred) (h := assumeT) assume_read has
      (b := "\n  ".toList) (d := "\n  ".toList) (by decide) (by decide) ht hts rest
    rw [assume_global, ows_paren (by decide)]
    exact this
  · have := headed_read (isPred := isPred) (h := assumeT) assume_read has
      (b := "\n    ".toList) (d := []) (by decide) (by simp) ht hts rest
    rw [assume_pc, ows_paren (by decide)]
    exact this

/-- **C99 (partial)**.  The style and scope of the invariant that the program writes, for the system or
for a process, are read back as the same style and scope, with the same expression, whatever follows.
Missing from the full statement: the style `closed` with the scopes `shadow` and `future`, for which it is
false (`C99_closed_lost`), and expressions that are not tidy (`C93_equal_lost`). -/
theorem C99_style_back_partial {isPred : String → Bool} (y : Style) (c : Scope)
    (hc : y = .closed → c = .direct) {e : Ex} (he : FromText isPred e) (ht : tidy e = true)
    (rest : List Char) :
    ∃ K, ∀ k ≥ K,
      legitStmtP isPred k (ows (globalLegitText y c (exText e) ++ rest)) = some (some (((y, c), e), rest)) ∧
      legitStmtP isPred k (ows (pcLegitText y c (exText e) ++ rest)) = some (some (((y, c), e), rest)) := by
  obtain ⟨k0, s, i, r, hp⟩ := he
  have hb := shape_back (parse_shape k0 .expr s _ hp ht)
  have hts : ∃ c u, exText e = c :: u ∧ startC c = true := by
    obtain ⟨c, u, h1, h2, _⟩ := hb.start
    exact ⟨c, u, h1, h2⟩
  obtain ⟨⟨K1, h1⟩, K2, h2⟩ := (stmts_read (T := (e, i)) (fun r hr => hb.read r hr fun _ => hr) hts rest).1 y c hc
  exact ⟨K1 + K2, fun k hk => ⟨h1 k (by omega), h2 k (by omega)⟩⟩

/-- **The style `closed` with another scope is not read back.**  Whatever the expression and whatever
follows, the statement is not accepted (neither as an assumption), and the option
`((future & closed) % puppet)` gives this style. -/
theorem C99_closed_lost :
    (∀ (isPred : String → Bool) (c : Scope), c ≠ .direct → ∀ (t rest : List Char) (k : ℕ),
      legitStmtP isPred k (ows (globalLegitText .closed c t ++ rest)) = some none ∧
      assumeStmtP isPred k (ows (globalLegitText .closed c t ++ rest)) = some none) ∧
    parseStyle (styleText .closed .shadow) = some (.mode .closed .shadow) := by
  refine ⟨fun isPred c hc t rest k => ?_, by decide +kernel⟩
  have e1 := ows_paren (a := "\n".toList) (s := styleInner .closed c ++ ')' :: ("\n  ".toList ++
        '(' :: (t ++ ')' :: ("\n  ".toList ++ ';' :: rest)))) (by decide)
  rw [← style_inner] at e1
  rw [show globalLegitText .closed c t ++ rest = "\n".toList ++ (styleText .closed c ++ ("\n  ".toList ++
        '(' :: (t ++ ')' :: ("\n  ".toList ++ ';' :: rest)))) by simp [globalLegitText], e1, style_inner]
  have h1 : ∀ s : List Char, lit "(" ('(' :: s) = some s := fun s => rfl
  have h2 : ∀ x, assumeT (styleInner .closed c ++ ')' :: x) = none := by
    intro x
    cases c <;> rfl
  constructor
  · simp only [legitStmtP, headedP, h1, Option.bind_some, ows_head (style_start .closed c), mode_none c hc]
  · simp only [assumeStmtP, headedP, h1, Option.bind_some, ows_head (style_start .closed c), h2]

theorem eqSkip_strip : ∀ a b : List Char, eqSkip a b = decide (strip a = strip b)
  | [], [] => by simp [eqSkip, strip]
  | c :: a, b => by
    by_cases hc : c = ' '
    · subst hc
      rw [eqSkip, eqSkip_strip a b]
      simp [strip]
    · match b with
      | [] =>
        rw [eqSkip]
        · simp [strip, hc]
        · exact hc
      | d :: b =>
        by_cases hd : d = ' '
        · subst hd
          rw [eqSkip, eqSkip_strip (c :: a) b]
          · simp [strip]
          · intro a' h; cases h; exact hc rfl
        · rw [eqSkip, eqSkip_strip a b]
          · simp [strip, hc, hd, Bool.decide_and, ← Bool.beq_eq_decide_eq]
          · exact hc
          · exact hd
  | [], d :: b => by
    by_cases hd : d = ' '
    · subst hd
      rw [eqSkip, eqSkip_strip [] b]
      · simp [strip]
      · intro a' h; cases h
    · rw [eqSkip]
      · simp [strip, hd]
      · exact hd
termination_by a b => a.length + b.length

/-- What `parse_style` gives for a text without spaces. -/
def optOf (x : List Char) : Option StyleOpt :=
  (styleOpts.find? fun p => decide (x = strip p.1.toList)).map Prod.snd

theorem parseStyle_strip (a : List Char) : parseStyle a = optOf (strip a) := by
  simp only [parseStyle, optOf, eqSkip_strip]

/-- The modes that have an option. -/
def hasOption (y : Style) (c : Scope) : Bool :=
  match c with
  | .direct => true
  | .shadow => decide (y ≠ .activeShadow)
  | .future => decide (y = .shadow)

theorem opt_listed : ∀ y c, hasOption y c = true → optOf (strip (styleText y c)) = some (.mode y c) := by
  intro y c
  cases y <;> cases c <;> decide +kernel

theorem opt_only : (styleOpts.all fun p => match optOf (strip p.1.toList) with
    | some (.mode y c) => hasOption y c && decide (strip p.1.toList = strip (styleText y c))
    | some (.behav _) => true
    | none => false) = true := by decide +kernel

/-- **C99, options**.  An option sets a style and scope exactly if it is the text that the program writes
for them, spaces aside, and they are among the eight that have an option.  (There is none for
`((future & active shadow) % puppet)`, `(future & future silent)`, `(future & future active shadow)` and
`(future & future closed)`; the branch of the program for `(future & silent)` with scope `future` is never
taken.) -/
theorem C99_option (a : List Char) (y : Style) (c : Scope) :
    parseStyle a = some (.mode y c) ↔
      strip a = strip (styleText y c) ∧ (c = .shadow → y ≠ .activeShadow) ∧ (c = .future → y = .shadow) := by
  have hcond : hasOption y c = true ↔ (c = .shadow → y ≠ .activeShadow) ∧ (c = .future → y = .shadow) := by
    cases y <;> cases c <;> simp [hasOption]
  rw [parseStyle_strip, ← hcond]
  constructor
  · intro h
    have h' := h
    rw [optOf, Option.map_eq_some_iff] at h'
    obtain ⟨p, hp, -⟩ := h'
    have hm := List.mem_of_find?_eq_some hp
    have he := List.find?_some hp
    simp only [decide_eq_true_eq] at he
    have := List.all_eq_true.1 opt_only p hm
    rw [← he, h] at this
    simp only [Bool.and_eq_true, decide_eq_true_eq] at this
    exact ⟨this.2, this.1⟩
  · rintro ⟨h, hc⟩
    rw [h]
    exact opt_listed y c hc

/-- **C99, behaviour**.  The behaviour within the invariant that is written (`future silent`,
`future active shadow`) is read back; nothing is written for `future shadow`, which is the default. -/
theorem C99_behaviour (b : Behav) (rest : List Char) :
    if b = .shadow then behavText b = [] else behavP (ows (behavText b ++ rest)) = some (b, rest) := by
  cases b
  · rw [if_neg (by decide)]; rfl
  · rw [if_pos rfl]; rfl
  · rw [if_neg (by decide)]; rfl

/-- The texts of the styles are different. -/
theorem style_inj : ∀ y c y' c', strip (styleText y c) = strip (styleText y' c') → y = y' ∧ c = c' := by
  intro y c y' c'
  cases y <;> cases c <;> cases y' <;> cases c' <;> decide +kernel

/-- **C99, agreement**.  A file whose statements all have one style and scope, as those that the program
writes, is accepted and gets this style and scope; a file with two different ones is not accepted. -/
theorem C99_agreement :
    (∀ (x : Style × Scope) (m : ℕ), (List.replicate (m + 1) x).foldlM assignMode none = some (some x)) ∧
    ∀ (l : List (Style × Scope)) (r : Option (Style × Scope)), l.foldlM assignMode none = some r →
      ∀ x ∈ l, r = some x := by
  have h1 : ∀ (x : Style × Scope) (m : ℕ), (List.replicate m x).foldlM assignMode (some x) = some (some x) := by
    intro x m
    induction m with
    | zero => rfl
    | succ m ih => simpa [List.replicate_succ, List.foldlM_cons, assignMode] using ih
  refine ⟨fun x m => by simpa [List.replicate_succ, List.foldlM_cons, assignMode] using h1 x m, ?_⟩
  have h2 : ∀ (l : List (Style × Scope)) (y : Style × Scope) (r : Option (Style × Scope)),
      l.foldlM assignMode (some y) = some r → r = some y ∧ ∀ x ∈ l, x = y := by
    intro l
    induction l with
    | nil => intro y r h; cases h; simp
    | cons a l ih =>
      intro y r h
      simp only [List.foldlM_cons, assignMode] at h
      by_cases hy : y = a
      · subst hy
        rw [if_pos rfl] at h
        obtain ⟨g1, g2⟩ := ih y r h
        exact ⟨g1, by simpa using g2⟩
      · rw [if_neg hy] at h; cases h
  intro l r h x hx
  cases l with
  | nil => simp at hx
  | cons a l =>
    obtain ⟨g1, g2⟩ := h2 l a r h
    rcases List.mem_cons.1 hx with rfl | hx
    · exact g1
    · rw [g2 x hx]; exact g1

/-! ### C100 -/

variable {n : ℕ} {dom : Fin n → ℕ}

/-- **C100, assumptions**.  The program collects the assumptions `es` of the system or of a kind of
processes, `a` and `m` being the sets before.  The text that it then writes is read back as one assumption
`T`, whatever follows, and taking in `T` alone gives the same set for the system and for each process as
taking in all of `es`. -/
theorem C100_assume_back {isPred : String → Bool} {es : List Ex} (hne : es ≠ [])
    (hes : ∀ e ∈ es, FromText isPred e ∧ tidy e = true) {ctx : List (EvalEnv n dom × IMap)}
    (hn : ∀ c ∈ ctx, ∀ e ∈ es, NoCapture c.1 c.2 e) {sep : List Char} (hs : sep = globalSep ∨ sep = pcSep)
    {k : ℕ} {a : Finset (FSt n dom)} {m : List (Finset (FSt n dom))} {st' : CollSt n dom}
    (hm : m.length ≤ ctx.length) (h : collectAll (joinAssume sep) ctx k es ⟨[], a, m⟩ = some st') :
    ∃ T,
      (∀ rest, ∃ K, ∀ k' ≥ K,
        assumeStmtP isPred k' (ows (globalAssumeText st'.text ++ rest)) = some (some (((), T), rest)) ∧
        assumeStmtP isPred k' (ows (pcAssumeText st'.text ++ rest)) = some (some (((), T), rest))) ∧
      ∃ K, ∀ k' ≥ K, ((collect (joinAssume sep) ctx k' ⟨[], a, m⟩ T).map fun s => (s.all, s.membs)) =
        some (st'.all, st'.membs) := by
  have hso : SepOk sep := by rcases hs with rfl | rfl; exacts [sep_global, sep_pc]
  have hsh : ∀ e ∈ es, ∃ i, Shape isPred .expr e i ∧ True := by
    intro e he
    obtain ⟨⟨k0, s, i, r, hp⟩, ht⟩ := hes e he
    exact ⟨i, parse_shape k0 .expr s _ hp ht, trivial⟩
  obtain ⟨u, l, ⟨j, g1⟩, g2, g3, g4, g5, g6⟩ := assume_text hso (P := fun _ _ => True) hne hsh
  have ht := collectAll_text _ _ _ h
  simp only at ht
  rw [ht, ← g5]
  refine ⟨andsEx u l, fun rest => ?_, ?_⟩
  · have hst : ∃ c v, exText u ++ tailText l = c :: v ∧ startC c = true := by
      obtain ⟨c, v, h1, h2, _⟩ := (shape_back g1).start
      exact ⟨c, v ++ tailText l, by rw [h1]; rfl, h2⟩
    obtain ⟨_, ⟨K1, h1⟩, K2, h2⟩ := stmts_read (isPred := isPred) (t := exText u ++ tailText l)
      (T := (andsEx u l, if l = [] then j else false))
      (fun r hr => by rw [List.append_assoc]; exact ands_read g1 g2 (fun _ => g3) hr) hst rest
    exact ⟨K1 + K2, fun k hk => ⟨h1 k (by omega), h2 k (by omega)⟩⟩
  · refine collect_back (es := es) hm ?_ h
    intro c hc ps hps
    cases es with
    | nil => exact absurd rfl hne
    | cons e es =>
      cases hps with
      | cons p1 p2 =>
        cases g6 with
        | cons q1 q2 =>
          obtain ⟨i, _, rfl⟩ := q1
          simp only [List.foldl_cons, Finset.univ_inter]
          exact den_assume (den_par (den_of (hn c hc e (by simp)) p1) i)
            (fun x hx => hn c hc x (by simp [hx])) q2 p2

/-- **C100, invariants (partial)**.  The same for invariants, if all but the first bind at least as strongly
as a conjunction.  Missing from the full statement: this condition, without which it is false
(`C100_legit_weaker`). -/
theorem C100_legit_back_partial {isPred : String → Bool} {e : Ex} {es : List Ex}
    (hes : ∀ x ∈ e :: es, FromText isPred x ∧ tidy x = true) (hb : ∀ x ∈ es, bindsAnd x = true)
    {ctx : List (EvalEnv n dom × IMap)} (hn : ∀ c ∈ ctx, ∀ x ∈ e :: es, NoCapture c.1 c.2 x)
    {sep : List Char} (hs : sep = globalSep ∨ sep = pcSep)
    {k : ℕ} {a : Finset (FSt n dom)} {m : List (Finset (FSt n dom))} {st' : CollSt n dom}
    (hm : m.length ≤ ctx.length) (h : collectAll (joinLegit sep) ctx k (e :: es) ⟨[], a, m⟩ = some st')
    {y : Style} {c : Scope} (hyc : y = .closed → c = .direct) :
    ∃ T,
      (∀ rest, ∃ K, ∀ k' ≥ K,
        legitStmtP isPred k' (ows (globalLegitText y c st'.text ++ rest)) = some (some (((y, c), T), rest)) ∧
        legitStmtP isPred k' (ows (pcLegitText y c st'.text ++ rest)) = some (some (((y, c), T), rest))) ∧
      ∃ K, ∀ k' ≥ K, ((collect (joinLegit sep) ctx k' ⟨[], a, m⟩ T).map fun s => (s.all, s.membs)) =
        some (st'.all, st'.membs) := by
  have hso : SepOk sep := by rcases hs with rfl | rfl; exacts [sep_global, sep_pc]
  have hsh : ∀ x ∈ e :: es, ∃ i, Shape isPred .expr x i := by
    intro x hx
    obtain ⟨⟨k0, s, i, r, hp⟩, ht⟩ := hes x hx
    exact ⟨i, parse_shape k0 .expr s _ hp ht⟩
  obtain ⟨i, h1⟩ := hsh e (by simp)
  obtain ⟨g1, g2⟩ := legit_text hso h1 (es := es) fun x hx => ⟨hb x hx, hsh x (by simp [hx])⟩
  have ht := collectAll_text _ _ _ h
  simp only at ht
  rw [ht]
  refine ⟨(es.foldl nextTree (e, i)).1, fun rest => ?_, ?_⟩
  · obtain ⟨⟨K1, h1⟩, K2, h2⟩ := (stmts_read g1 g2 rest).1 y c hyc
    exact ⟨K1 + K2, fun k hk => ⟨h1 k (by omega), h2 k (by omega)⟩⟩
  · refine collect_back (es := e :: es) hm ?_ h
    intro c hc ps hps
    cases hps with
    | cons p1 p2 =>
      simp only [List.foldl_cons, Finset.univ_inter]
      exact den_legit (t := (e, i)) (den_of (hn c hc e (by simp)) p1) (fun x hx => hn c hc x (by simp [hx])) p2

/-- **C100, the index map**.  With an empty index map, as outside of processes, the condition on the names
of quantified variables holds. -/
theorem C100_global (env : EvalEnv n dom) (e : Ex) : NoCapture env (fun _ => none) e :=
  fun _ h => absurd rfl h

/-! ### Examples and witnesses -/

/-- The tree of a text. -/
def treeOf (s : String) : Ex := ((parse (fun _ => false) 60 .expr s.toList).join.map (·.1.1)).getD (.num 0)

theorem treeOf_from {s : String} (h : (parse (fun _ => false) 60 .expr s.toList).join.isSome = true) :
    FromText (fun _ => false) (treeOf s) := by
  unfold treeOf
  cases hp : parse (fun _ => false) 60 .expr s.toList with
  | none => rw [hp] at h; simp at h
  | some o =>
    cases o with
    | none => rw [hp] at h; simp at h
    | some v => exact ⟨60, s.toList, v.1.2, v.2, by rw [hp]; rfl⟩

/-- Two assumptions, one of them a disjunction and one a quantifier. -/
def twoAssumes : List Ex := [treeOf "x[0]==0 || x[1]==0", treeOf "forall i < 3 : x[i]!=1 || x[i-1]!=1"]

/-- Two invariants, the second a conjunction. -/
def twoLegits : List Ex := [treeOf "x[0]==0 || x[1]==0", treeOf "x[2]==0 && (x[0]==1 || x[1]==1)"]

/-- The hypotheses of C100 hold for these, and the text is what one expects. -/
example : (∀ e ∈ twoAssumes ++ twoLegits, FromText (fun _ => false) e ∧ tidy e = true) ∧
    (∀ e ∈ twoLegits.tail, bindsAnd e = true) ∧
    ((collectAll (joinAssume globalSep) [(egEnv, fun _ => none)] 20 twoAssumes ⟨[], Finset.univ, []⟩).map
      fun s => (s.text, s.all.card)) =
      some ("(x[0]==0 || x[1]==0)\n  &&\n  (forall i < 3 : x[i]!=1 || x[i-1]!=1)".toList, 4) ∧
    ((collectAll (joinLegit globalSep) [(egEnv, fun _ => none)] 20 twoLegits ⟨[], Finset.univ, []⟩).map
      fun s => (s.text, s.all.card)) =
      some ("(x[0]==0 || x[1]==0)\n  &&\n  x[2]==0 && (x[0]==1 || x[1]==1)".toList, 2) := by
  refine ⟨?_, by decide +kernel, by decide +kernel, by decide +kernel⟩
  intro e he
  simp only [twoAssumes, twoLegits, List.cons_append, List.nil_append, List.mem_cons, List.not_mem_nil,
    or_false] at he
  rcases he with rfl | rfl | rfl | rfl
  · exact ⟨treeOf_from (by decide +kernel), by decide +kernel⟩
  · exact ⟨treeOf_from (by decide +kernel), by decide +kernel⟩
  · exact ⟨treeOf_from (by decide +kernel), by decide +kernel⟩
  · exact ⟨treeOf_from (by decide +kernel), by decide +kernel⟩

/-- Processes: the index of the process is not the variable of a quantifier. -/
example : NoCapture egEnv (fun x => if x = "i" then some 1 else none)
    (treeOf "forall j < 3 : x[j]!=1 || x[i]!=1") := by
  intro z hz
  have : z = "i" := by by_contra h; exact hz (if_neg h)
  subst this
  exact ⟨by decide +kernel, fun _ _ h => by cases h⟩

/-- The state `1, 0, 1`. -/
def oneZeroOne : FSt 3 egDom := fun i => (if i = 1 then 0 else 1 : Fin 2)

/-- **C100 fails for a second invariant that is a disjunction.**  With the invariants `x[2]==0` and
`x[0]==0 || x[1]==0` the program writes `(x[2]==0)  &&  x[0]==0 || x[1]==0`, which is read as another,
weaker invariant: the state `1, 0, 1` is not in the invariant of the system, but in that of the file. -/
theorem C100_legit_weaker :
    ∃ t, ((collectAll (joinLegit globalSep) [(egEnv, fun _ => none)] 20
        [treeOf "x[2]==0", treeOf "x[0]==0 || x[1]==0"] ⟨[], Finset.univ, []⟩).map
          fun s => (s.text, decide (oneZeroOne ∈ s.all))) = some (t, false) ∧
      (((legitStmtP (fun _ => false) 60 (ows (globalLegitText .closed .direct t))).join.bind fun v =>
        collect (joinLegit globalSep) [(egEnv, fun _ => none)] 20 ⟨[], Finset.univ, []⟩ v.1.2).map
          fun s => decide (oneZeroOne ∈ s.all)) = some true :=
  ⟨"(x[2]==0)\n  &&\n  x[0]==0 || x[1]==0".toList, by decide +kernel, by decide +kernel⟩

end Verif.Props
