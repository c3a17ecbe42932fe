import Verif.Proofs.FileJoin

/-!
Reading of the text of a process.
-/

namespace Verif.Proofs

open Verif.Model Verif.Spec Verif.Props

variable {isPred : String → Bool}

/-! ### Sections -/

/-- No accesses begin here. -/
def AfterAcc (s : List Char) : Prop := firstAlt accTypes s = none ∧ lit "symmetric" s = none

theorem afterAcc_stop {s : List Char} (h : AfterAcc s) : AtLast (fun k => accDP k s) none :=
  else_right (then_none (tok_none h.1)) (then_none (tok_none h.2))

theorem afterAcc_head {s : List Char} (h : ∃ c t, s = c :: t ∧ c ∉ ['r', 'w', 'y', 'e', 's']) : AfterAcc s := by
  obtain ⟨c, t, rfl, hc⟩ := h
  refine ⟨accType_stop ?_, lit_head (c := 's') rfl ?_⟩
  · intro d u hd hm
    cases hd
    simp only [List.mem_cons, List.not_mem_nil, or_false] at hm hc
    tauto
  · rintro rfl
    exact hc (by simp)

/-- Not a predicate. -/
def isOther : PcItem → Prop
  | .pred _ _ => False
  | _ => True

/-- A text that is read as some parts of a process, none of them a predicate. -/
structure PcPart (isPred : String → Bool) (t : List Char) (l : List PcItem) : Prop where
  read : ∀ acc R, pcPred acc = isPred → Steps pcItemP acc (ows (t ++ R)) (acc ++ l) (ows R)
  start : t = [] ∨ ∀ R, AfterAcc (ows (t ++ R))
  other : ∀ i ∈ l, isOther i

theorem PcPart.nil : PcPart isPred [] [] := ⟨fun acc R _ => by simpa using Steps.refl, .inl rfl, by simp⟩

theorem pcPred_other {acc l : List PcItem} (h : ∀ i ∈ l, isOther i) : pcPred (acc ++ l) = pcPred acc := by
  funext x
  have : pcPred l x = false := by
    simp only [pcPred, List.any_eq_false]
    intro i hi
    have := h i hi
    cases i <;> simp_all [isOther]
  simp only [pcPred, List.any_append] at this ⊢
  rw [this, Bool.or_false]

theorem PcPart.app {t1 t2 : List Char} {l1 l2 : List PcItem} (h1 : PcPart isPred t1 l1) (h2 : PcPart isPred t2 l2) :
    PcPart isPred (t1 ++ t2) (l1 ++ l2) := by
  refine ⟨fun acc R h => ?_, ?_, ?_⟩
  · have a := h1.read acc (t2 ++ R) h
    have b := h2.read (acc ++ l1) R (by rw [pcPred_other h1.other, h])
    rw [List.append_assoc, ← List.append_assoc acc]
    exact a.trans b
  · rcases h1.start with rfl | h
    · exact h2.start
    · right
      intro R
      rw [List.append_assoc]
      exact h _
  · intro i hi
    rcases List.mem_append.1 hi with hi | hi
    · exact h1.other i hi
    · exact h2.other i hi

theorem pred_none {k : ℕ} {s : List Char} (h : lit "predicate" s = none) : predP isPred k s = some none := by
  simp only [predP, h, tokR]

theorem headed_none {α : Type} {h : List Char → Option (α × List Char)} {k : ℕ} {s : List Char}
    (hs : ((lit "(" s).bind fun r => h (ows r)) = none) : headedP isPred h k s = some none := by
  simp only [headedP, hs]

theorem at_const {α : Type} {f : ℕ → Option α} {v : α} (h : ∀ k, f k = some v) : AtLast f v := ⟨0, fun k _ => h k⟩

/-- A section with an assumption. -/
theorem part_assume {es : List Ex} (hes : AssumesFit isPred es) :
    ∃ A, Joined .assume es A ∧ PcPart isPred (optText pcAssumeText (es.foldl (joinAssume pcSep) [])) A := by
  by_cases hne : es = []
  · subst hne
    exact ⟨[], by simp [Joined], PcPart.nil⟩
  obtain ⟨T, h1, h2, h3⟩ := joined_assume hne hes (.inr rfl)
  refine ⟨[.assume T], ?_, ?_, ?_, ?_⟩
  · rw [Joined, if_neg hne]
    exact ⟨T, rfl, h1⟩
  · intro acc R hp
    rw [optText, if_neg h2]
    refine .one ?_
    unfold pcItemP
    rw [hp]
    refine then_at (a := PcItem.assume T) (r := R) ?_ (ok_at _ _)
    refine else_right (then_none (at_const fun k => pred_none ?_)) (else_left (then_at (h3 R).2 (ok_at _ _)))
    rw [assume_pc, ows_paren (by decide)]
    exact lit_head (c := 'p') rfl (by decide)
  · right
    intro R
    rw [optText, if_neg h2, assume_pc, ows_paren (by decide)]
    exact afterAcc_head ⟨_, _, rfl, by decide⟩
  · intro i hi
    simp only [List.mem_singleton] at hi
    subst hi
    trivial

theorem pcLegit_ows (y : Style) (c : Scope) (t R : List Char) : ∃ u, ows (pcLegitText y c t ++ R) =
    '(' :: (styleInner y c ++ ')' :: u) := by
  have e1 := ows_paren (a := "\n  ".toList) (s := styleInner y c ++ ')' :: ("\n    ".toList ++
      '(' :: (t ++ ')' :: ([] ++ ';' :: R)))) (by decide)
  rw [← style_inner] at e1
  rw [show pcLegitText y c t ++ R = "\n  ".toList ++ (styleText y c ++ ("\n    ".toList ++
      '(' :: (t ++ ')' :: ([] ++ ';' :: R)))) by simp [pcLegitText], e1, style_inner]
  exact ⟨_, rfl⟩

theorem style_notAssume (y : Style) (c : Scope) (u : List Char) :
    ((lit "(" ('(' :: (styleInner y c ++ ')' :: u))).bind fun r => assumeT (ows r)) = none := by
  have h2 : ∀ x, assumeT (styleInner y c ++ ')' :: x) = none := by
    intro x
    cases y <;> cases c <;> rfl
  rw [lit_open, Option.bind_some, ows_head (style_start y c), h2]

/-- A section with an invariant. -/
theorem part_legit {es : List Ex} (hes : LegitsFit isPred es) {m : Style × Scope} (hm : m.1 = .closed → m.2 = .direct) :
    ∃ L, Joined (.legit m) es L ∧ PcPart isPred (optText (pcLegitText m.1 m.2) (es.foldl (joinLegit pcSep) [])) L := by
  by_cases hne : es = []
  · subst hne
    exact ⟨[], by simp [Joined], PcPart.nil⟩
  obtain ⟨T, h1, h2, h3⟩ := joined_legit hne hes (.inr rfl)
  refine ⟨[.legit m T], ?_, ?_, ?_, ?_⟩
  · rw [Joined, if_neg hne]
    exact ⟨T, rfl, h1⟩
  · intro acc R hp
    rw [optText, if_neg h2]
    refine .one ?_
    unfold pcItemP
    rw [hp]
    refine then_at (a := PcItem.legit m T) (r := R) ?_ (ok_at _ _)
    obtain ⟨u, hu⟩ := pcLegit_ows m.1 m.2 (es.foldl (joinLegit pcSep) []) R
    refine else_right (then_none (at_const fun k => pred_none ?_)) (else_right (then_none (at_const fun k => headed_none ?_))
      (else_left (then_at (h3 R m.1 m.2 hm).2 (ok_at _ _))))
    · rw [hu]
      exact lit_head (c := 'p') rfl (by decide)
    · rw [hu]
      exact style_notAssume _ _ _
  · right
    intro R
    rw [optText, if_neg h2]
    obtain ⟨u, hu⟩ := pcLegit_ows m.1 m.2 (es.foldl (joinLegit pcSep) []) R
    rw [hu]
    exact afterAcc_head ⟨_, _, rfl, by decide⟩
  · intro i hi
    simp only [List.mem_singleton] at hi
    subst hi
    trivial

/-- Sections with actions are nothing else. -/
theorem acts_item {kd : ActKind} {acc : List PcItem} {s R : List Char} {l : List ActTree}
    (hp : lit "predicate" s = none) (ho : lit "(" s = none)
    (h : AtLast (fun k => actDefP (pcPred acc) k s) (some ((kd, l), R))) :
    AtLast (fun k => pcItemP k acc s) (some (.acts kd l, ows R)) := by
  unfold pcItemP
  refine then_at (a := PcItem.acts kd l) (r := R) ?_ (ok_at _ _)
  refine else_right (then_none (at_const fun k => pred_none hp)) (else_right (then_none (at_const fun k => headed_none ?_))
    (else_right (then_none (at_const fun k => headed_none ?_)) (then_at h (ok_at _ _))))
  · rw [ho]; rfl
  · rw [ho]; rfl

theorem sect_ows {kd : ActKind} {l : List ActTree} (hne : l ≠ []) (R : List Char) :
    ∃ u, ows (sectText (kindWord kd) l ++ R) = (kindWord kd).toList ++ ':' :: u := by
  rw [sectText, if_neg hne]
  simp only [List.append_assoc]
  refine ⟨(l.flatMap fun T => "\n    ( ".toList ++ (actStr T ++ " )".toList)) ++ ("\n    ;".toList ++ R), ?_⟩
  show ows ('\n' :: ' ' :: ' ' :: _) = _
  rw [ows_nl, ows_space, ows_space]
  cases kd <;> exact ows_cons (by decide) (by decide)

theorem kind_head (kd : ActKind) (u : List Char) : AfterAcc ((kindWord kd).toList ++ ':' :: u) ∧
    lit "predicate" ((kindWord kd).toList ++ ':' :: u) = none ∧ lit "(" ((kindWord kd).toList ++ ':' :: u) = none := by
  cases kd
  · refine ⟨⟨accType_stop ?_, rfl⟩, rfl, rfl⟩
    intro c t h
    cases h
    decide
  all_goals exact ⟨afterAcc_head ⟨_, _, rfl, by decide⟩, rfl, rfl⟩

/-- A section with actions that have been read. -/
theorem part_sect (kd : ActKind) {l : List ActTree} (hl : ∀ T ∈ l, TreeFit isPred T) :
    PcPart isPred (sectText (kindWord kd) l) (sect kd l) := by
  by_cases hne : l = []
  · subst hne
    exact PcPart.nil
  rw [sect, if_neg hne]
  refine ⟨?_, ?_, ?_⟩
  · intro acc R hp
    refine .one ?_
    have h := sect_read (isPred := isPred) (kd := kd) rfl hne hl R
    rw [← hp] at h
    obtain ⟨u, hu⟩ := sect_ows (kd := kd) hne R
    refine acts_item ?_ ?_ h
    · rw [hu]; exact (kind_head kd u).2.1
    · rw [hu]; exact (kind_head kd u).2.2
  · right
    intro R
    obtain ⟨u, hu⟩ := sect_ows (kd := kd) hne R
    rw [hu]
    exact (kind_head kd u).1
  · intro i hi
    simp only [List.mem_singleton] at hi
    subst hi
    trivial

/-- The section with the chosen actions. -/
theorem part_puppet {pc : PcSymm} {ref : ℕ → String × Ex} {acts : List (List ℕ)} {t : List Char}
    (hR : acts ≠ [] → RefsOk isPred pc ref) (h : puppetText pc (fun r => exText (refEx ref r)) acts = some t)
    (hr : ∀ vals ∈ acts, guardEqs pc ref vals ≠ []) :
    ∃ Ts, List.Forall₂ (IsTree pc ref) acts Ts ∧ PcPart isPred t (sect .puppet Ts) := by
  by_cases hne : acts = []
  · subst hne
    refine ⟨[], .nil, ?_⟩
    have : t = [] := (Option.some.inj h).symm
    subst this
    exact PcPart.nil
  obtain ⟨Ts, h1, h2, ⟨u, hu⟩, h3⟩ := puppetSect_read (hR hne) h hr hne
  refine ⟨Ts, h2, ?_⟩
  rw [sect, if_neg h1]
  refine ⟨?_, ?_, ?_⟩
  · intro acc R hp
    refine .one ?_
    have h := h3 R
    rw [← hp] at h
    refine acts_item ?_ ?_ h
    · rw [hu]; rfl
    · rw [hu]; rfl
  · right
    intro R
    rw [hu]
    exact afterAcc_head ⟨_, _, rfl, by decide⟩
  · intro i hi
    simp only [List.mem_singleton] at hi
    subst hi
    trivial

/-! ### Predicates -/

theorem pcPred_preds (l : List (String × Ex)) : pcPred (l.map fun q => PcItem.pred q.1 q.2) = namedIn l := by
  funext x
  simp only [pcPred, namedIn, List.any_map]
  rfl

theorem preds_steps {l : List (String × Ex)} (h : PredsFit l) (R : List Char) :
    Steps pcItemP [] (ows (l.flatMap pcPredText ++ R)) (l.map fun q => PcItem.pred q.1 q.2) (ows R) := by
  have := Steps.many (p := pcItemP) (text := pcPredText) (val := fun q => PcItem.pred q.1 q.2) l [] R ?_
  · simpa using this
  intro l1 c l2 hl R
  obtain ⟨h1, h2⟩ := h l1 c l2 hl
  obtain ⟨i, hi⟩ := fits_shape h2
  rw [List.nil_append]
  unfold pcItemP
  rw [pcPred_preds]
  exact then_at (a := PcItem.pred c.1 c.2) (r := R) (else_left (then_at (pcPred_read (named_id h1) hi R) (ok_at _ _)))
    (ok_at _ _)

theorem item_end (acc : List PcItem) (R : List Char) : AtLast (fun k => pcItemP k acc ('}' :: R)) none := by
  unfold pcItemP
  refine then_none (else_right (then_none (at_const fun k => pred_none rfl)) (else_right
    (then_none (at_const fun k => headed_none rfl)) (else_right (then_none (at_const fun k => headed_none rfl)) (then_none ?_))))
  exact tok_none rfl

theorem predText_after (p : String × Ex) (R : List Char) : AfterAcc (ows (pcPredText p ++ R)) := by
  refine afterAcc_head ?_
  simp only [pcPredText, List.append_assoc]
  rw [ows_nl2, show ∀ s, ows ("predicate".toList ++ s) = "predicate".toList ++ s from
    fun s => ows_cons (by decide) (by decide)]
  exact ⟨_, _, rfl, by decide⟩

/-! ### Processes -/

theorem idx_read {p : PcMem} {sysPred : String → Bool} (h : PcFit sysPred p) (R : List Char) :
    ∃ r, ident (ows (idxText p ++ ']' :: R)) = some (p.idx, r) ∧
      AtLast (fun k => pcIdxP sysPred k (ows r)) (some ((p.map, p.count), ']' :: R)) := by
  obtain ⟨i, hi⟩ := fits_sum h.count
  have hid := named_id h.idx
  unfold idxText
  cases hm : p.map with
  | none =>
    simp only [List.append_assoc]
    refine ⟨' ' :: '<' :: ' ' :: (exText p.count ++ ']' :: R), ?_, ?_⟩
    · rw [ows_id hid]
      exact ident_at hid (by decide) _
    · rw [ows_space, ows_cons (c := '<') (by decide) (by decide)]
      refine else_right (tok_none rfl) (then_at (dom_read hi (by simp) R) (ok_at _ _))
  | some xe =>
    obtain ⟨x, e⟩ := xe
    obtain ⟨hx, he⟩ := h.map x e hm
    obtain ⟨j, hj⟩ := fits_sum he
    have hxi := named_id hx
    simp only [List.append_assoc]
    refine ⟨' ' :: '<' :: '-' :: ' ' :: ("map".toList ++ ' ' :: (x.toList ++ ' ' :: '<' :: ' ' :: (exText p.count ++
      ' ' :: ':' :: ' ' :: (exText e ++ ']' :: R)))), ?_, ?_⟩
    · rw [ows_id hid]
      exact ident_at hid (by decide) _
    · rw [ows_space, ows_cons (c := '<') (by decide) (by decide)]
      have ht := text_shape hi
      have hte := text_shape hj
      obtain ⟨a, ha⟩ := ht.read
      obtain ⟨b, hb⟩ := hte.close (c := ']') (by simp) R
      refine else_left (tok_at (a := ' ' :: ("map".toList ++ ' ' :: (x.toList ++ ' ' :: '<' :: ' ' :: (exText p.count ++
        ' ' :: ':' :: ' ' :: (exText e ++ ']' :: R))))) rfl ?_)
      rw [ows_space, show ∀ s, ows ("map".toList ++ s) = "map".toList ++ s from fun s => ows_cons (by decide) (by decide)]
      refine tok_at (lit_app _ _) (tok_at (ws_id_sp hxi _) (tok_at (ident_at hxi (by decide) _) ?_))
      show AtLast (fun k => tokR (lit "<" (ows (' ' :: '<' :: ' ' :: (exText p.count ++
        ' ' :: ':' :: ' ' :: (exText e ++ ']' :: R))))) _) _
      rw [ows_space, ows_cons (c := '<') (by decide) (by decide)]
      refine tok_at (lit1 rfl) ?_
      rw [ows_space, ht.ows]
      refine then_at (ha _ (fol_space (by simp)) fun _ => fol_space (by simp)) ?_
      rw [ows_space, ows_cons (c := ':') (by decide) (by decide)]
      refine tok_at (lit1 rfl) ?_
      rw [ows_space, hte.ows]
      exact then_at hb (ok_at _ _)

theorem nacc_start (a : NAcc) (R : List Char) : ∀ t, ows (a.text ++ R) ≠ 'l' :: t := by
  cases a with
  | one t x i =>
    rw [text_one, List.append_assoc, ows_nl2, accText_ows]
    obtain ⟨c, u, hu, hc⟩ := accWord_start t
    intro v hv
    rw [accText, hu] at hv
    have : c = 'l' := by
      have := congrArg List.head? hv
      simpa using this
    subst this
    exact absurd hc (by decide)
  | sym names vals stmts =>
    rw [sym_text]
    intro v hv
    have : some 's' = some 'l' := congrArg List.head? hv
    exact absurd this (by decide)

/-- A process is read back. -/
theorem proc_read {m : Style × Scope} (hm : m.1 = .closed → m.2 = .direct) {sysPred : String → Bool} {p : PcMem}
    (h : PcFit sysPred p) {t : List Char} (ht : procText m p = some t) :
    ∃ d, PcBack m p d ∧ (∀ R, ∃ u, ows (t ++ R) = 'p' :: 'r' :: 'o' :: u) ∧
      ∀ R, AtLast (fun k => procP sysPred k (ows (t ++ R))) (some (d, '\n' :: R)) := by
  obtain ⟨st, a1, a2, a3⟩ := accs_load h.accs
  have hname : ∀ r < p.pc.access.length, vblName st r = exText (refEx (refAt p.accs) r) := by
    intro r hr
    exact a3 r (by rw [← h.same]; exact hr)
  have hRefs : p.acts ≠ [] → RefsOk (namedIn p.preds) p.pc (refAt p.accs) := by
    intro hne r hr
    rw [h.same] at hr
    have hmem : refAt p.accs r ∈ p.accs.flatMap refsOf := by
      unfold refAt
      rw [List.getElem?_eq_getElem hr, Option.getD_some]
      exact List.getElem_mem hr
    refine ⟨?_, fits_shape (h.refs hne _ hmem)⟩
    simp only [List.mem_flatMap] at hmem
    obtain ⟨d, hd, hmem⟩ := hmem
    have hfit := h.accs d hd
    generalize refAt p.accs r = q at hmem
    cases d with
    | one t refs =>
      simp only [refsOf, List.mem_flatMap] at hmem
      obtain ⟨u, hu, hq⟩ := hmem
      obtain ⟨x, i, rfl, hx, _⟩ := hfit.2 u hu
      simp only [partsOf, List.mem_singleton] at hq
      subst hq
      exact named_id hx
    | sym names vals stmts =>
      simp only [refsOf, List.mem_flatMap, List.mem_map] at hmem
      obtain ⟨s, hs, u, hu, v, hv, q', hq', rfl⟩ := hmem
      obtain ⟨x, i, rfl, hx, _⟩ := (hfit.2.2.2.2.2 s hs).2 u hu
      simp only [partsOf, List.mem_singleton] at hq'
      subst hq'
      exact named_id hx
  unfold procText at ht
  rw [a1, Option.bind_some, a2, Option.bind_some, Option.map_eq_some_iff] at ht
  obtain ⟨tp, htp, ht⟩ := ht
  rw [puppetText_congr hname] at htp
  obtain ⟨A, hA, pA⟩ := part_assume h.assumes
  obtain ⟨L, hL, pL⟩ := part_legit h.legits hm
  obtain ⟨Ts, hTs, pT⟩ := part_puppet hRefs htp h.acts
  have pS := part_sect .shadow h.shadow
  have pP := part_sect .permit h.permit
  have pF := part_sect .forbid h.forbid
  have pAll := ((((pA.app pL).app pS).app pP).app pF).app pT
  set items := (p.preds.map fun q => PcItem.pred q.1 q.2) ++ (((((A ++ L) ++ sect .shadow p.shadow) ++
    sect .permit p.permit) ++ sect .forbid p.forbid) ++ sect .puppet Ts) with hitems
  set tAll := optText pcAssumeText (p.assumes.foldl (joinAssume pcSep) []) ++
    optText (pcLegitText m.1 m.2) (p.legits.foldl (joinLegit pcSep) []) ++
    sectText (kindWord .shadow) p.shadow ++ sectText (kindWord .permit) p.permit ++
    sectText (kindWord .forbid) p.forbid ++ tp with htAll
  have hows : ∀ R, ows (t ++ R) = "process".toList ++ (' ' :: (p.name.toList ++ '[' :: (idxText p ++ ']' :: ('\n' :: '{' ::
      (p.lets.flatMap letText ++ ((p.accs.flatMap nof).flatMap NAcc.text ++ (p.preds.flatMap pcPredText ++ (tAll ++
        ('\n' :: '}' :: '\n' :: R)))))))) ) := by
    intro R
    rw [← ht, htAll]
    simp only [List.append_assoc]
    show ows ('\n' :: _) = _
    rw [ows_nl]
    exact ows_cons (by decide) (by decide)
  refine ⟨⟨p.name, p.idx, p.map, p.count, p.lets, p.accs.flatMap splitAcc, items⟩, ?_, ?_, ?_⟩
  · refine ⟨rfl, rfl, rfl, rfl, rfl, rfl, A, L, Ts, ?_, hA, hL, hTs⟩
    simp only [hitems, List.append_assoc]
  · intro R
    rw [hows]
    exact ⟨_, rfl⟩
  · intro R
    rw [hows]
    have hn := named_id h.name
    refine tok_at (lit_app _ _) (tok_at (ws_id_sp hn _) (tok_at (ident_at hn (by decide) _) (tok_at (lit1 rfl) ?_)))
    obtain ⟨r, hr1, hr2⟩ := idx_read h ('\n' :: '{' ::
      (p.lets.flatMap letText ++ ((p.accs.flatMap nof).flatMap NAcc.text ++ (p.preds.flatMap pcPredText ++ (tAll ++
        ('\n' :: '}' :: '\n' :: R))))))
    refine tok_at hr1 (then_at hr2 ?_)
    rw [ows_cons (c := ']') (by decide) (by decide)]
    refine tok_at (lit1 rfl) ?_
    rw [ows_nl, ows_cons (c := '{') (by decide) (by decide)]
    refine tok_at (lit1 rfl) ?_
    have hend : ows ('\n' :: '}' :: '\n' :: R) = '}' :: '\n' :: R := by
      rw [ows_nl]; exact ows_cons (by decide) (by decide)
    have hnof : p.accs.flatMap nof ≠ [] := by
      intro h0
      cases hl : p.accs with
      | nil => exact h.some hl
      | cons d l =>
        rw [hl, List.flatMap_cons, List.append_eq_nil_iff] at h0
        exact nof_ne (h.accs d (by rw [hl]; simp)) h0.1
    have hspl : (p.accs.flatMap nof).map NAcc.toD = p.accs.flatMap splitAcc := by
      rw [List.map_flatMap]
      have := h.accs
      clear * - this
      revert this
      generalize p.accs = l
      intro this
      induction l with
      | nil => rfl
      | cons d l ih => rw [List.flatMap_cons, List.flatMap_cons, nof_toD (this d (by simp)), ih fun e he => this e (by simp [he])]
    have hfit : ∀ a ∈ p.accs.flatMap nof, a.fit := by
      intro a ha
      simp only [List.mem_flatMap] at ha
      obtain ⟨d, hd, ha⟩ := ha
      exact accFit_nof (h.accs d hd) a ha
    refine then_at (a := p.lets) (r := ows ((p.accs.flatMap nof).flatMap NAcc.text ++ (p.preds.flatMap pcPredText ++
      (tAll ++ ('\n' :: '}' :: '\n' :: R))))) (rep_at (p := fun k _ s => letP k s) ?_ (let_stop ?_)) ?_
    · have := Steps.many (p := fun k _ s => letP k s) (text := letText) (val := id) p.lets []
        ((p.accs.flatMap nof).flatMap NAcc.text ++ (p.preds.flatMap pcPredText ++ (tAll ++ ('\n' :: '}' :: '\n' :: R)))) ?_
      · simpa using this
      · intro l1 c l2 hl R
        obtain ⟨g1, g2⟩ := h.lets c (by rw [hl]; simp)
        obtain ⟨i, hi⟩ := fits_shape g2
        exact let_read (named_id g1) hi R
    · cases hl : p.accs.flatMap nof with
      | nil => exact absurd hl hnof
      | cons a l =>
        rw [List.flatMap_cons, List.append_assoc]
        exact nacc_start a _
    refine then_at (a := p.accs.flatMap splitAcc) (r := ows (p.preds.flatMap pcPredText ++
      (tAll ++ ('\n' :: '}' :: '\n' :: R)))) (rep_at (p := fun k _ s => accDP k s) ?_ (afterAcc_stop ?_)) ?_
    · have := Steps.many (p := fun k _ s => accDP k s) (text := NAcc.text) (val := NAcc.toD) (p.accs.flatMap nof) []
        (p.preds.flatMap pcPredText ++ (tAll ++ ('\n' :: '}' :: '\n' :: R))) ?_
      · rw [hspl] at this
        simpa using this
      · intro l1 c l2 hl R
        exact nacc_read (hfit c (by rw [hl]; simp)) R
    · cases hl : p.preds with
      | cons q l =>
        rw [List.flatMap_cons, List.append_assoc]
        exact predText_after q _
      | nil =>
        rw [List.flatMap_nil, List.nil_append]
        rcases pAll.start with h0 | h0
        · rw [h0, List.nil_append, hend]
          exact afterAcc_head ⟨_, _, rfl, by decide⟩
        · exact h0 _
    have hne : p.accs.flatMap splitAcc ≠ [] := by
      rw [← hspl]
      simpa using hnof
    simp only [if_neg hne]
    refine then_at (a := items) (r := '}' :: '\n' :: R) (rep_at (p := pcItemP) ?_ (item_end _ _)) (tok_at (lit1 rfl) (ok_at _ _))
    have s1 := preds_steps h.preds (tAll ++ ('\n' :: '}' :: '\n' :: R))
    have s2 := pAll.read (p.preds.map fun q => PcItem.pred q.1 q.2) ('\n' :: '}' :: '\n' :: R) (pcPred_preds _)
    rw [hend] at s2
    exact s1.trans s2

end Verif.Proofs
