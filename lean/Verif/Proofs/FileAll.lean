import Verif.Proofs.FilePc

/-!
Reading of the text of a file.
-/

namespace Verif.Proofs

open Verif.Model Verif.Spec Verif.Props

variable {isPred : String → Bool}

/-! ### Parts of a file -/

/-- No variables begin here. -/
def VarEnd (s : List Char) : Prop := s = [] ∨ (∃ t, s = '(' :: t) ∨ (∃ t, s = 'f' :: t) ∨ ∃ t, s = 'p' :: 'r' :: t

/-- Not a predicate. -/
def notPred : TopItem → Prop
  | .pred _ _ => False
  | _ => True

/-- A text that is read as some parts of a file, none of them a predicate. -/
structure TopPart (isPred : String → Bool) (t : List Char) (l : List TopItem) : Prop where
  read : ∀ acc R, topPred acc = isPred → Steps topItemP acc (ows (t ++ R)) (acc ++ l) (ows R)
  start : t = [] ∨ ∀ R, VarEnd (ows (t ++ R))
  other : ∀ i ∈ l, notPred i

theorem TopPart.nil : TopPart isPred [] [] := ⟨fun acc R _ => by simpa using Steps.refl, .inl rfl, by simp⟩

theorem topPred_other {acc l : List TopItem} (h : ∀ i ∈ l, notPred i) : topPred (acc ++ l) = topPred acc := by
  funext x
  have : topPred l x = false := by
    simp only [topPred, List.any_eq_false]
    intro i hi
    have := h i hi
    cases i <;> simp_all [notPred]
  simp only [topPred, List.any_append] at this ⊢
  rw [this, Bool.or_false]

theorem TopPart.app {t1 t2 : List Char} {l1 l2 : List TopItem} (h1 : TopPart isPred t1 l1) (h2 : TopPart isPred t2 l2) :
    TopPart isPred (t1 ++ t2) (l1 ++ l2) := by
  refine ⟨fun acc R h => ?_, ?_, ?_⟩
  · have a := h1.read acc (t2 ++ R) h
    have b := h2.read (acc ++ l1) R (by rw [topPred_other h1.other, h])
    rw [List.append_assoc, ← List.append_assoc acc]
    exact a.trans b
  · rcases h1.start with rfl | h
    · exact h2.start
    · right
      intro R
      rw [List.append_assoc]
      exact h _
  · intro i hi
    rcases List.mem_append.1 hi with hi | hi
    · exact h1.other i hi
    · exact h2.other i hi

/-- The assumption of the system. -/
theorem top_assume {es : List Ex} (hes : AssumesFit isPred es) :
    ∃ A, Joined .assume es A ∧ TopPart isPred (optText globalAssumeText (es.foldl (joinAssume globalSep) [])) A := by
  by_cases hne : es = []
  · subst hne
    exact ⟨[], by simp [Joined], TopPart.nil⟩
  obtain ⟨T, h1, h2, h3⟩ := joined_assume hne hes (.inl rfl)
  refine ⟨[.assume T], ?_, ?_, ?_, ?_⟩
  · rw [Joined, if_neg hne]
    exact ⟨T, rfl, h1⟩
  · intro acc R hp
    rw [optText, if_neg h2]
    refine .one ?_
    unfold topItemP
    rw [hp]
    refine then_at (a := TopItem.assume T) (r := R) ?_ (ok_at _ _)
    refine else_right (then_none (at_const fun k => pred_none ?_)) (else_left (then_at (h3 R).1 (ok_at _ _)))
    rw [assume_global, ows_paren (by decide)]
    exact lit_head (c := 'p') rfl (by decide)
  · right
    intro R
    rw [optText, if_neg h2, assume_global, ows_paren (by decide)]
    exact .inr (.inl ⟨_, rfl⟩)
  · intro i hi
    simp only [List.mem_singleton] at hi
    subst hi
    trivial

theorem globalLegit_ows (y : Style) (c : Scope) (t R : List Char) : ∃ u, ows (globalLegitText y c t ++ R) =
    '(' :: (styleInner y c ++ ')' :: u) := by
  have e1 := ows_paren (a := "\n".toList) (s := styleInner y c ++ ')' :: ("\n  ".toList ++
      '(' :: (t ++ ')' :: ("\n  ".toList ++ ';' :: R)))) (by decide)
  rw [← style_inner] at e1
  rw [show globalLegitText y c t ++ R = "\n".toList ++ (styleText y c ++ ("\n  ".toList ++
      '(' :: (t ++ ')' :: ("\n  ".toList ++ ';' :: R)))) by simp [globalLegitText], e1, style_inner]
  exact ⟨_, rfl⟩

/-- The invariant of the system. -/
theorem top_legit {es : List Ex} (hes : LegitsFit isPred es) {m : Style × Scope} (hm : m.1 = .closed → m.2 = .direct) :
    ∃ L, Joined (.legit m) es L ∧
      TopPart isPred (optText (globalLegitText m.1 m.2) (es.foldl (joinLegit globalSep) [])) L := by
  by_cases hne : es = []
  · subst hne
    exact ⟨[], by simp [Joined], TopPart.nil⟩
  obtain ⟨T, h1, h2, h3⟩ := joined_legit hne hes (.inl rfl)
  refine ⟨[.legit m T], ?_, ?_, ?_, ?_⟩
  · rw [Joined, if_neg hne]
    exact ⟨T, rfl, h1⟩
  · intro acc R hp
    rw [optText, if_neg h2]
    refine .one ?_
    unfold topItemP
    rw [hp]
    refine then_at (a := TopItem.legit m T) (r := R) ?_ (ok_at _ _)
    obtain ⟨u, hu⟩ := globalLegit_ows m.1 m.2 (es.foldl (joinLegit globalSep) []) R
    refine else_right (then_none (at_const fun k => pred_none ?_)) (else_right (then_none (at_const fun k => headed_none ?_))
      (else_left (then_at (h3 R m.1 m.2 hm).1 (ok_at _ _))))
    · rw [hu]
      exact lit_head (c := 'p') rfl (by decide)
    · rw [hu]
      exact style_notAssume _ _ _
  · right
    intro R
    rw [optText, if_neg h2]
    obtain ⟨u, hu⟩ := globalLegit_ows m.1 m.2 (es.foldl (joinLegit globalSep) []) R
    rw [hu]
    exact .inr (.inl ⟨_, rfl⟩)
  · intro i hi
    simp only [List.mem_singleton] at hi
    subst hi
    trivial

/-- The behaviour. -/
theorem top_behav (b : Behav) :
    TopPart isPred (behavText b) (if b = .shadow then [] else [.behav b]) := by
  have h := C99_behaviour b
  by_cases hb : b = .shadow
  · subst hb
    exact TopPart.nil
  simp only [if_neg hb] at h ⊢
  have hf : ∀ R, ∃ u, ows (behavText b ++ R) = 'f' :: u := by
    intro R
    cases b
    · exact ⟨_, rfl⟩
    · exact absurd rfl hb
    · exact ⟨_, rfl⟩
  refine ⟨?_, ?_, ?_⟩
  · intro acc R _
    refine .one ?_
    unfold topItemP
    obtain ⟨u, hu⟩ := hf R
    have hp : lit "predicate" (ows (behavText b ++ R)) = none := by
      rw [hu]; exact lit_head (c := 'p') rfl (by decide)
    have ho : lit "(" (ows (behavText b ++ R)) = none := by
      rw [hu]; exact lit_head (c := '(') rfl (by decide)
    refine then_at (a := TopItem.behav b) (r := R) ?_ (ok_at _ _)
    refine else_right (then_none (at_const fun k => pred_none hp)) (else_right (then_none (at_const fun k => headed_none ?_))
      (else_right (then_none (at_const fun k => headed_none ?_)) (else_left (tok_at (h R) (ok_at _ _)))))
    · rw [ho]; rfl
    · rw [ho]; rfl
  · right
    intro R
    exact .inr (.inr (.inl (hf R)))
  · intro i hi
    simp only [List.mem_singleton] at hi
    subst hi
    trivial

theorem behav_none {s : List Char} (h : ∃ u, s = 'p' :: u) : behavP s = none := by
  obtain ⟨u, rfl⟩ := h
  rfl

/-- A process. -/
theorem top_proc {m : Style × Scope} (hm : m.1 = .closed → m.2 = .direct) {p : PcMem}
    (h : PcFit isPred p) {t : List Char} (ht : procText m p = some t) :
    ∃ d, PcBack m p d ∧ TopPart isPred t [.proc d] := by
  obtain ⟨d, h1, h2, h3⟩ := proc_read hm h ht
  refine ⟨d, h1, ?_, ?_, ?_⟩
  · intro acc R hp
    have hr := h3 R
    rw [← hp] at hr
    obtain ⟨u, hu⟩ := h2 R
    refine .one ?_
    have hpr : lit "predicate" (ows (t ++ R)) = none := by
      rw [hu]; rfl
    have ho : lit "(" (ows (t ++ R)) = none := by
      rw [hu]; rfl
    have := then_at (f := fun _ a r => okR a (ows r)) (a := TopItem.proc d) (r := '\n' :: R)
      (else_right (then_none (f := fun _ v r => okR (TopItem.pred v.1 v.2) r) (at_const fun k => pred_none (isPred := topPred acc) (k := k) hpr))
      (else_right (then_none (f := fun _ v r => okR (TopItem.assume v.2) r)
        (at_const fun k => headed_none (isPred := topPred acc) (h := assumeT) (k := k) (by rw [ho]; rfl)))
      (else_right (then_none (f := fun _ v r => okR (TopItem.legit v.1 v.2) r)
        (at_const fun k => headed_none (isPred := topPred acc) (h := legitModeP) (k := k) (by rw [ho]; rfl)))
      (else_right (tok_none (f := fun _ (v : Behav × List Char) => okR (TopItem.behav v.1) v.2) (behav_none ⟨_, hu⟩))
        (then_at (f := fun _ v r => okR (TopItem.proc v) r) hr (ok_at _ _)))))) (ok_at _ _)
    rw [ows_nl] at this
    exact this
  · right
    intro R
    obtain ⟨u, hu⟩ := h2 R
    exact .inr (.inr (.inr ⟨_, hu⟩))
  · intro i hi
    simp only [List.mem_singleton] at hi
    subst hi
    trivial

theorem top_procs {m : Style × Scope} (hm : m.1 = .closed → m.2 = .direct) :
    ∀ {l : List PcMem} {ts : List (List Char)}, (∀ p ∈ l, PcFit isPred p) → l.mapM (procText m) = some ts →
    ∃ ds, List.Forall₂ (PcBack m) l ds ∧ TopPart isPred ts.flatten (ds.map .proc)
  | [], ts, _, ht => by
    simp at ht
    subst ht
    exact ⟨[], .nil, TopPart.nil⟩
  | p :: l, ts, h, ht => by
    rw [List.mapM_cons] at ht
    simp only [Option.bind_eq_bind, Option.bind_eq_some_iff, Option.pure_def, Option.some.injEq] at ht
    obtain ⟨t, ht1, ts', ht2, rfl⟩ := ht
    obtain ⟨d, h1, h2⟩ := top_proc hm (h p (by simp)) ht1
    obtain ⟨ds, h3, h4⟩ := top_procs hm (fun q hq => h q (by simp [hq])) ht2
    exact ⟨d :: ds, .cons h1 h3, by simpa using h2.app h4⟩

theorem topPred_preds (l : List (String × Ex)) : topPred (l.map fun q => TopItem.pred q.1 q.2) = namedIn l := by
  funext x
  simp only [topPred, namedIn, List.any_map]
  rfl

theorem top_preds {l : List (String × Ex)} (h : PredsFit l) (R : List Char) :
    Steps topItemP [] (ows (l.flatMap topPredText ++ R)) (l.map fun q => TopItem.pred q.1 q.2) (ows R) := by
  have := Steps.many (p := topItemP) (text := topPredText) (val := fun q => TopItem.pred q.1 q.2) l [] R ?_
  · simpa using this
  intro l1 c l2 hl R
  obtain ⟨h1, h2⟩ := h l1 c l2 hl
  obtain ⟨i, hi⟩ := fits_shape h2
  rw [List.nil_append]
  unfold topItemP
  rw [topPred_preds]
  exact then_at (a := TopItem.pred c.1 c.2) (r := R) (else_left (then_at (topPred_read (named_id h1) hi R) (ok_at _ _)))
    (ok_at _ _)

theorem top_end (acc : List TopItem) : AtLast (fun k => topItemP k acc []) none := by
  unfold topItemP
  exact then_none (else_right (then_none (at_const fun k => pred_none rfl)) (else_right
    (then_none (at_const fun k => headed_none rfl)) (else_right (then_none (at_const fun k => headed_none rfl))
      (else_right (tok_none rfl) (then_none (tok_none rfl))))))

theorem predText_end (p : String × Ex) (R : List Char) : VarEnd (ows (topPredText p ++ R)) := by
  simp only [topPredText, List.append_assoc]
  have : ∀ s, ows ("\n".toList ++ ("predicate".toList ++ s)) = "predicate".toList ++ s := by
    intro s
    show ows ('\n' :: _) = _
    rw [ows_nl]
    exact ows_cons (by decide) (by decide)
  rw [this]
  exact .inr (.inr (.inr ⟨_, rfl⟩))

/-! ### The beginning -/

theorem owsGo_comment : ∀ (c : List Char) (s : List Char), '\n' ∉ c → owsGo true (c ++ '\n' :: s) = ows s
  | [], s, _ => by simp [owsGo, ows]
  | d :: c, s, h => by
    simp only [List.mem_cons, not_or] at h
    rw [List.cons_append, owsGo, if_neg (Ne.symm h.1)]
    exact owsGo_comment c s h.2

theorem comment_ows {c : Option (List Char)} (h : ∀ t, c = some t → '\n' ∉ t) (s : List Char) :
    ows (commentText c ++ '\n' :: s) = ows s := by
  cases c with
  | none => exact ows_nl
  | some t =>
    have ht := h t rfl
    show ows ('/' :: '/' :: ' ' :: (t ++ '\n' :: s)) = _
    have hn : '\n' ∉ '/' :: ' ' :: t := by simp [ht]
    have := owsGo_comment ('/' :: ' ' :: t) s hn
    rw [← this]
    simp [ows, owsGo, isBlank]

theorem const_ows (c : ConstD) (R : List Char) : ∃ u, constText c ++ R = '\n' :: ("constant".toList ++ u) := by
  simp only [constText, List.append_assoc]
  exact ⟨_, rfl⟩

theorem var_ows (v : VarD) (R : List Char) : ∃ u, varText v ++ R = '\n' :: (roleText v.role ++ ("variable".toList ++ u)) := by
  simp only [varText, List.append_assoc]
  exact ⟨_, rfl⟩

theorem role_ows (r : Role) (u : List Char) : ows ('\n' :: (roleText r ++ ("variable".toList ++ u))) =
    roleText r ++ ("variable".toList ++ u) := by
  rw [ows_nl]
  cases r <;> exact ows_cons (by decide) (by decide)

theorem role_notC (r : Role) (u : List Char) : ∀ t, roleText r ++ ("variable".toList ++ u) ≠ 'c' :: t := by
  intro t ht
  have := congrArg List.head? ht
  cases r
  · exact absurd (show some 'v' = some 'c' from this) (by decide)
  · exact absurd (show some 's' = some 'c' from this) (by decide)
  · exact absurd (show some 'p' = some 'c' from this) (by decide)

theorem role_notProt (r : Role) (u : List Char) : lit "protocol" (roleText r ++ ("variable".toList ++ u)) = none := by
  cases r <;> rfl

theorem protocol_none {s : List Char} (h : lit "protocol" s = none) : protocolP s = s := by
  simp only [protocolP, h, Option.bind_none]

/-! ### Files -/

theorem file_read {f : FileMem} (h : FileFit f) {comment : Option (List Char)}
    (hc : ∀ t, comment = some t → '\n' ∉ t) {t : List Char} (ht : fileText comment f = some t) :
    ∃ d, FileBack f d ∧ AtLast (fun k => fileP k t) (some d) := by
  unfold fileText at ht
  rw [Option.map_eq_some_iff] at ht
  obtain ⟨ts, hts, ht⟩ := ht
  obtain ⟨A, hA, pA⟩ := top_assume h.assumes
  obtain ⟨L, hL, pL⟩ := top_legit h.legits h.mode
  obtain ⟨ds, hds, pD⟩ := top_procs h.mode h.pcs hts
  have pB := top_behav (isPred := namedIn f.preds) f.behav
  have pAll := ((pA.app pL).app pB).app pD
  set items := (f.preds.map fun q => TopItem.pred q.1 q.2) ++ (((A ++ L) ++ (if f.behav = .shadow then [] else [.behav f.behav])) ++
    ds.map .proc) with hitems
  set tAll := optText globalAssumeText (f.assumes.foldl (joinAssume globalSep) []) ++
    optText (globalLegitText f.mode.1 f.mode.2) (f.legits.foldl (joinLegit globalSep) []) ++ behavText f.behav ++
      ts.flatten with htAll
  have ht' : t = commentText comment ++ (f.consts.flatMap constText ++ (f.vars.flatMap varText ++
      (f.preds.flatMap topPredText ++ tAll))) := by
    rw [← ht, htAll]
    simp only [List.append_assoc]
  obtain ⟨v0, vs, hv⟩ : ∃ v0 vs, f.vars = v0 :: vs := by
    cases hv : f.vars with
    | nil => exact absurd hv h.some
    | cons a l => exact ⟨a, l, rfl⟩
  have hvar : ∃ u, f.vars.flatMap varText ++ (f.preds.flatMap topPredText ++ tAll) =
      '\n' :: (roleText v0.role ++ ("variable".toList ++ u)) := by
    rw [hv, List.flatMap_cons, List.append_assoc]
    exact var_ows v0 _
  obtain ⟨u, hu⟩ := hvar
  have hstart : ows t = ows (f.consts.flatMap constText ++ (f.vars.flatMap varText ++
      (f.preds.flatMap topPredText ++ tAll))) ∧ protocolP (ows t) = ows t := by
    rw [ht']
    cases hcs : f.consts with
    | nil =>
      rw [List.flatMap_nil, List.nil_append, hu, comment_ows hc]
      have := role_ows v0.role u
      rw [this]
      rw [ows_nl] at this
      exact ⟨this, protocol_none (by rw [this]; exact role_notProt _ _)⟩
    | cons c cs =>
      rw [List.flatMap_cons, List.append_assoc]
      obtain ⟨w, hw⟩ := const_ows c (cs.flatMap constText ++ (f.vars.flatMap varText ++ (f.preds.flatMap topPredText ++ tAll)))
      rw [hw, comment_ows hc, ows_nl]
      refine ⟨rfl, protocol_none ?_⟩
      rw [show ows ("constant".toList ++ w) = "constant".toList ++ w from ows_cons (by decide) (by decide)]
      rfl
  refine ⟨⟨f.consts, f.vars, items⟩, ⟨rfl, rfl, A, L, ds, ?_, hA, hL, hds⟩, ?_⟩
  · simp only [hitems, List.append_assoc]
  have key : AtLast (fun k =>
      thenP (repP (fun _ s => thenP (constP k s) fun v r => okR v (ows r)) k [] (protocolP (ows t))) fun cs r =>
      thenP (repP (fun _ s => thenP (varP k s) fun v r => okR v (ows r)) k [] r) fun vs r =>
      if vs = [] then some none else
      thenP (repP (topItemP k) k [] r) fun l r => okR (FileD.mk cs vs l) r)
      (some (FileD.mk f.consts f.vars items, [])) := by
    rw [hstart.2, hstart.1]
    refine then_at (a := f.consts) (r := ows (f.vars.flatMap varText ++ (f.preds.flatMap topPredText ++ tAll)))
      (rep_at (p := fun k _ s => thenP (constP k s) fun v r => okR v (ows r)) ?_ (const_stop ?_)) ?_
    · have := Steps.many (p := fun k _ s => thenP (constP k s) fun v r => okR v (ows r)) (text := constText) (val := id)
        f.consts [] (f.vars.flatMap varText ++ (f.preds.flatMap topPredText ++ tAll)) ?_
      · simpa using this
      · intro l1 c l2 hl R
        obtain ⟨g1, g2⟩ := h.consts c (by rw [hl]; simp)
        refine const_read (named_id g1) ?_ R
        cases hcv : c.val with
        | one e =>
          rw [hcv] at g2
          exact fits_sum g2
        | list l =>
          rw [hcv] at g2
          exact ⟨g2.1, fun e he => fits_sum (g2.2 e he)⟩
    · rw [hu, role_ows]
      exact role_notC _ _
    refine then_at (a := f.vars) (r := ows (f.preds.flatMap topPredText ++ tAll))
      (rep_at (p := fun k _ s => thenP (varP k s) fun v r => okR v (ows r)) ?_ (var_stop ?_)) ?_
    · have := Steps.many (p := fun k _ s => thenP (varP k s) fun v r => okR v (ows r)) (text := varText) (val := id)
        f.vars [] (f.preds.flatMap topPredText ++ tAll) ?_
      · simpa using this
      · intro l1 c l2 hl R
        obtain ⟨g1, g2, g3, g4⟩ := h.vars c (by rw [hl]; simp)
        exact var_read (named_id g1) (fits_sum g2) (fits_sum g3) g4 R
    · cases hl : f.preds with
      | cons q l =>
        rw [List.flatMap_cons, List.append_assoc]
        exact predText_end q _
      | nil =>
        rw [List.flatMap_nil, List.nil_append]
        rcases pAll.start with h0 | h0
        · rw [h0]; exact .inl rfl
        · have := h0 []
          rwa [List.append_nil] at this
    simp only [if_neg h.some]
    refine then_at (a := items) (r := []) (rep_at (p := topItemP) ?_ (top_end _)) (ok_at _ _)
    have s1 := top_preds h.preds tAll
    have s2 := pAll.read (f.preds.map fun q => TopItem.pred q.1 q.2) [] (topPred_preds _)
    rw [List.append_nil] at s2
    exact s1.trans s2
  obtain ⟨K, hK⟩ := key
  refine ⟨K, fun k hk => ?_⟩
  have := hK k hk
  simp only at this
  show fileP k t = _
  unfold fileP
  rw [this]
  rfl

end Verif.Proofs
