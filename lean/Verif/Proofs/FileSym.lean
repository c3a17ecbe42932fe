import Verif.Proofs.FileAcc

/-!
Reading of the text of the accesses of a process.
-/

namespace Verif.Proofs

open Verif.Model Verif.Spec

theorem fol_hash {isPred : String → Bool} {nt : NT} (u : List Char) : Fol isPred nt (' ' :: '#' :: u) := by
  have ho : ows (' ' :: '#' :: u) = '#' :: u := by
    rw [ows_space]; exact ows_cons (by decide) (by decide)
  refine fol_head (nameEnd_cons (by decide) (by decide) ho (by decide)) ho ?_ (fun _ => by decide)
  intro m _
  cases m <;> simp only [heads] <;> decide

/-- A statement that can be written. -/
def NAcc.fit : NAcc → Prop
  | .one _ x i => isId x ∧ ∃ j, Shape noPred .expr i j
  | .sym names vals stmts =>
    names ≠ [] ∧ (∀ x ∈ names, isId x) ∧ vals ≠ [] ∧
    (∀ v ∈ vals, v.length = names.length ∧ ∀ e ∈ v, ∃ j, Shape noPred .expr e j) ∧
    stmts ≠ [] ∧ ∀ s ∈ stmts, isId s.2.1 ∧ ∃ j, Shape noPred .expr s.2.2 j

/-- What may follow a list of expressions. -/
def ListEnd (c : Char) (R : List Char) : Prop := c = ')' ∨ (c = ' ' ∧ ∃ u, R = '#' :: u)

theorem listEnd_stop {c : Char} {R : List Char} (h : ListEnd c R) : ∃ d u, ows (c :: R) = d :: u ∧ d ≠ ',' := by
  rcases h with rfl | ⟨rfl, u, rfl⟩
  · exact ⟨')', R, ows_cons (by decide) (by decide), by decide⟩
  · exact ⟨'#', u, by rw [ows_space]; exact ows_cons (by decide) (by decide), by decide⟩

theorem listEnd_fol {isPred : String → Bool} {nt : NT} {c : Char} {R : List Char} (h : ListEnd c R) : Fol isPred nt (c :: R) := by
  rcases h with rfl | ⟨rfl, u, rfl⟩
  · exact fol_close (by simp)
  · exact fol_hash u

theorem exprs_read {a : Ex} {l : List Ex} (h : ∀ e ∈ a :: l, ∃ j, Shape noPred .expr e j) {c : Char} {R : List Char}
    (hc : ListEnd c R) :
    AtLast (fun k => exprsP k (sepBy ", ".toList ((a :: l).map exText) ++ c :: R)) (some (a :: l, ows (c :: R))) := by
  obtain ⟨j, hj⟩ := h a (by simp)
  have ht := text_shape hj
  obtain ⟨b, hb⟩ := ht.read
  set T : List Char := (l.flatMap fun e => ", ".toList ++ exText e) ++ c :: R with hT
  have h0 : sepBy ", ".toList ((a :: l).map exText) ++ c :: R = exText a ++ T := by
    rw [List.map_cons, sepBy_cons, List.flatMap_map, List.append_assoc]
  have hf : ∀ nt, Fol noPred nt T := by
    intro nt
    cases l with
    | nil => exact listEnd_fol hc
    | cons e l =>
      have : ∃ u, T = ',' :: u := ⟨_, rfl⟩
      obtain ⟨u, hu⟩ := this
      rw [hu]
      exact fol_close (by simp)
  rw [h0]
  refine then_at (hb T (hf _) fun _ => hf _) ?_
  have hst := comma_steps (isPred := noPred) (nt := .expr) (Or.inr rfl) l (fun e he => h e (by simp [he])) [a] c R
    (by rcases hc with rfl | ⟨rfl, hu⟩
        · exact Or.inl (by simp)
        · exact Or.inr ⟨rfl, hu⟩)
  obtain ⟨d, u, hd, hne⟩ := listEnd_stop hc
  have := rep_at (p := fun k _ s => tokR (lit "," s) fun r =>
    thenP (parse noPred k .expr (ows r)) fun b r => okR b.1 (ows r)) hst (by rw [hd]; exact comma_stop hne u)
  exact this

theorem exprs_start {a : Ex} {l : List Ex} (h : ∃ j, Shape noPred .expr a j) (r : List Char) :
    ows (sepBy ", ".toList ((a :: l).map exText) ++ r) = sepBy ", ".toList ((a :: l).map exText) ++ r := by
  obtain ⟨j, hj⟩ := h
  rw [List.map_cons, sepBy_cons, List.append_assoc]
  exact (text_shape hj).ows _

/-- A tuple. -/
theorem values_read {a : Ex} {l : List Ex} (h : ∀ e ∈ a :: l, ∃ j, Shape noPred .expr e j) (R : List Char) :
    AtLast (fun k => valuesP k ('(' :: (sepBy ", ".toList ((a :: l).map exText) ++ ')' :: R))) (some (a :: l, R)) := by
  refine tok_at (lit1 rfl) ?_
  rw [exprs_start (h a (by simp))]
  have := exprs_read h (c := ')') (R := R) (Or.inl rfl)
  rw [ows_cons (c := ')') (by decide) (by decide)] at this
  exact then_at this (tok_at (lit1 rfl) (ok_at _ _))

/-- The text of a tuple. -/
def tupleText (v : List Ex) : List Char := "(".toList ++ sepBy ", ".toList (v.map exText) ++ ")".toList

theorem tuple_app (v : List Ex) (R : List Char) : tupleText v ++ R = '(' :: (sepBy ", ".toList (v.map exText) ++ ')' :: R) := by
  rw [tupleText, List.append_assoc, List.append_assoc]; rfl

theorem tuple_steps : ∀ (l : List (List Ex)) (acc : List (List Ex)) (c : Char) (R : List Char),
    (∀ v ∈ l, v ≠ [] ∧ ∀ e ∈ v, ∃ j, Shape noPred .expr e j) →
    Steps (fun k _ s => tokR (lit "," s) fun r => thenP (valuesP k (ows r)) fun m r => okR m (ows r)) acc
      (ows ((l.flatMap fun v => ", ".toList ++ tupleText v) ++ c :: R)) (acc ++ l) (ows (c :: R))
  | [], acc, c, R, _ => by simpa using Steps.refl
  | v :: l, acc, c, R, h => by
    obtain ⟨h1, h2⟩ := h v (by simp)
    set T : List Char := (l.flatMap fun v => ", ".toList ++ tupleText v) ++ c :: R with hT
    have e1 : ows (((v :: l).flatMap fun v => ", ".toList ++ tupleText v) ++ c :: R) = ',' :: ' ' :: (tupleText v ++ T) := by
      rw [List.flatMap_cons, List.append_assoc, List.append_assoc]
      exact ows_cons (by decide) (by decide)
    rw [e1]
    have e2 : acc ++ v :: l = (acc ++ [v]) ++ l := by simp
    rw [e2]
    refine .step (a := v) (r := ows T) ?_ (tuple_steps l (acc ++ [v]) c R fun w hw => h w (by simp [hw]))
    refine tok_at (lit1 rfl) ?_
    rw [ows_space, tuple_app, ows_cons (c := '(') (by decide) (by decide)]
    obtain ⟨a, as, rfl⟩ : ∃ a as, v = a :: as := by
      cases v with
      | nil => exact absurd rfl h1
      | cons a l => exact ⟨a, l, rfl⟩
    exact then_at (values_read h2 T) (ok_at _ _)

theorem name_steps : ∀ (l : List String) (acc : List String) (R : List Char), (∀ x ∈ l, isId x) →
    Steps (fun _ _ s => tokR (lit "," s) fun r => tokR (ident (ows r)) fun (y, r) => okR y (ows r)) acc
      (ows ((l.flatMap fun x => ", ".toList ++ x.toList) ++ ')' :: R)) (acc ++ l) (')' :: R)
  | [], acc, R, _ => by
    have : ows (')' :: R) = ')' :: R := ows_cons (by decide) (by decide)
    simpa [this] using Steps.refl
  | x :: l, acc, R, h => by
    have hx := h x (by simp)
    set T : List Char := (l.flatMap fun x => ", ".toList ++ x.toList) ++ ')' :: R with hT
    have e1 : ows (((x :: l).flatMap fun x => ", ".toList ++ x.toList) ++ ')' :: R) = ',' :: ' ' :: (x.toList ++ T) := by
      rw [List.flatMap_cons, List.append_assoc, List.append_assoc]
      exact ows_cons (by decide) (by decide)
    rw [e1]
    have e2 : acc ++ x :: l = (acc ++ [x]) ++ l := by simp
    rw [e2]
    refine .step (a := x) (r := ows T) ?_ (name_steps l (acc ++ [x]) R fun w hw => h w (by simp [hw]))
    refine tok_at (lit1 rfl) ?_
    rw [ows_space, ows_id hx]
    have : ∃ d u, T = d :: u ∧ idChar d = false := by
      cases l with
      | nil => exact ⟨')', R, rfl, by decide⟩
      | cons y l => exact ⟨',', _, rfl, by decide⟩
    obtain ⟨d, u, hu, hd⟩ := this
    rw [hu]
    exact tok_at (ident_at hx hd u) (ok_at _ _)

theorem links1_none (s : List Char) : AtLast (fun k => links1P k ('(' :: s)) none :=
  tok_none (by simp [ident, show Char.isAlpha '(' = false by decide])

/-- The head of `symmetric`. -/
theorem links_read {names : List String} {vals : List (List Ex)} (hn : names ≠ []) (hx : ∀ x ∈ names, isId x)
    (hv : vals ≠ []) (he : ∀ v ∈ vals, v.length = names.length ∧ ∀ e ∈ v, ∃ j, Shape noPred .expr e j) (R : List Char) :
    (∃ u, ∀ s, ws (' ' :: ((linkTexts names vals).1 ++ s)) = some ((linkTexts names vals).1 ++ s) ∧ u = ()) ∧
    AtLast (fun k => elseP (links1P k ((linkTexts names vals).1 ++ (" <- ".toList ++ ("{# ".toList ++
        ((linkTexts names vals).2 ++ ' ' :: '#' :: R)))))
      (links2P k ((linkTexts names vals).1 ++ (" <- ".toList ++ ("{# ".toList ++
        ((linkTexts names vals).2 ++ ' ' :: '#' :: R))))))
      (some ((names, vals), '#' :: R)) := by
  have hh : ows (' ' :: '#' :: R) = '#' :: R := by rw [ows_space]; exact ows_cons (by decide) (by decide)
  have ha : ∀ s : List Char, ows (" <- ".toList ++ s) = "<-".toList ++ (' ' :: s) := fun s => by
    show ows (' ' :: '<' :: _) = _
    rw [ows_space, ows_cons (c := '<') (by decide) (by decide)]
    rfl
  have hb : ∀ s : List Char, ows (' ' :: ("{# ".toList ++ s)) = "{#".toList ++ (' ' :: s) := fun s => by
    show ows (' ' :: '{' :: _) = _
    rw [ows_space, ows_cons (c := '{') (by decide) (by decide)]
    rfl
  match names, hn with
  | [x], _ =>
    have hx' := hx x (by simp)
    have hval : ∃ a l, vals = (a :: l).map fun e => [e] := by
      have : ∀ v ∈ vals, ∃ e, v = [e] := fun v hm => List.length_eq_one_iff.1 (he v hm).1
      clear he
      induction vals with
      | nil => exact absurd rfl hv
      | cons v vs ih =>
        obtain ⟨e, rfl⟩ := this v (by simp)
        by_cases hvs : vs = []
        · subst hvs; exact ⟨e, [], rfl⟩
        · obtain ⟨a, l, rfl⟩ := ih hvs fun w hw => this w (by simp [hw])
          exact ⟨e, a :: l, rfl⟩
    obtain ⟨a, l, rfl⟩ := hval
    have hal : ∀ e ∈ a :: l, ∃ j, Shape noPred .expr e j := by
      intro e hm
      exact (he [e] (List.mem_map.2 ⟨e, hm, rfl⟩)).2 e (by simp)
    have h1 : (linkTexts [x] ((a :: l).map fun e => [e])).1 = x.toList := rfl
    have h2 : (linkTexts [x] ((a :: l).map fun e => [e])).2 = sepBy ", ".toList ((a :: l).map exText) := by
      simp only [linkTexts, List.map_map]
      rfl
    rw [h1, h2]
    refine ⟨⟨(), fun s => ⟨ws_id_sp hx' s, rfl⟩⟩, else_left ?_⟩
    refine tok_at (a := (x, " <- ".toList ++ ("{# ".toList ++ (sepBy ", ".toList ((a :: l).map exText) ++ ' ' :: '#' :: R))))
      (ident_at hx' (c := ' ') (by decide) _) ?_
    show AtLast (fun k => tokR (lit "<-" (ows (" <- ".toList ++ _))) _) _
    rw [ha]
    refine tok_at (lit_app _ _) ?_
    rw [hb]
    refine tok_at (lit_app _ _) ?_
    rw [ows_space, exprs_start (hal a (by simp))]
    have := exprs_read hal (c := ' ') (R := '#' :: R) (Or.inr ⟨rfl, R, rfl⟩)
    rw [hh] at this
    exact then_at this (ok_at _ _)
  | x :: y :: names, _ =>
    have hx' := hx x (by simp)
    have hvn : ∀ v ∈ vals, v ≠ [] ∧ ∀ e ∈ v, ∃ j, Shape noPred .expr e j := by
      intro v hm
      refine ⟨fun h => ?_, (he v hm).2⟩
      have := (he v hm).1
      rw [h] at this
      simp at this
    obtain ⟨v, vs, rfl⟩ : ∃ v vs, vals = v :: vs := by
      cases vals with
      | nil => exact absurd rfl hv
      | cons a l => exact ⟨a, l, rfl⟩
    have h1 : ∀ s, (linkTexts (x :: y :: names) (v :: vs)).1 ++ s =
        '(' :: (x.toList ++ ((((y :: names).flatMap fun x => ", ".toList ++ x.toList)) ++ ')' :: s)) := by
      intro s
      simp only [linkTexts]
      rw [List.map_cons, sepBy_cons, List.flatMap_map, List.append_assoc, List.append_assoc, List.append_assoc]
      rfl
    have h2 : ∀ s, (linkTexts (x :: y :: names) (v :: vs)).2 ++ s =
        tupleText v ++ ((vs.flatMap fun v => ", ".toList ++ tupleText v) ++ s) := by
      intro s
      simp only [linkTexts]
      rw [List.map_cons, sepBy_cons, List.flatMap_map, List.append_assoc]
      rfl
    refine ⟨⟨(), fun s => ⟨?_, rfl⟩⟩, ?_⟩
    · rw [h1]; exact ws_sp (by decide) (by decide)
    rw [h1, h2]
    refine else_right (links1_none _) ?_
    refine tok_at (lit1 rfl) (tok_at (a := (x, _)) (ident_at hx' (c := ',') (by decide) _) ?_)
    have hst := name_steps (y :: names) [x] (" <- ".toList ++ ("{# ".toList ++
      (tupleText v ++ ((vs.flatMap fun v => ", ".toList ++ tupleText v) ++ ' ' :: '#' :: R))))
      fun z hz => hx z (by simp only [List.mem_cons] at hz ⊢; exact Or.inr hz)
    refine then_at (a := x :: y :: names) (r := ')' :: (" <- ".toList ++ ("{# ".toList ++
      (tupleText v ++ ((vs.flatMap fun v => ", ".toList ++ tupleText v) ++ ' ' :: '#' :: R)))))
      (rep_at (p := fun _ _ s => tokR (lit "," s) fun r => tokR (ident (ows r)) fun (y, r) => okR y (ows r)) hst
        (tok_none (lit_head (c := ',') (u := []) rfl (by decide)))) ?_
    refine tok_at (lit1 rfl) ?_
    rw [ha]
    refine tok_at (lit_app _ _) ?_
    rw [hb]
    refine tok_at (lit_app _ _) ?_
    rw [ows_space, tuple_app, ows_cons (c := '(') (by decide) (by decide)]
    obtain ⟨hv1, hv2⟩ := hvn v (by simp)
    obtain ⟨a, as, rfl⟩ : ∃ a as, v = a :: as := by
      cases v with
      | nil => exact absurd rfl hv1
      | cons a l => exact ⟨a, l, rfl⟩
    refine then_at (values_read hv2 _) ?_
    have hst2 := tuple_steps vs [a :: as] ' ' ('#' :: R) fun w hw => hvn w (by simp [hw])
    rw [hh] at hst2
    exact then_at (rep_at (p := fun k _ s => tokR (lit "," s) fun r => thenP (valuesP k (ows r)) fun m r => okR m (ows r))
      hst2 (tok_none (lit_head (c := ',') (u := []) rfl (by decide)))) (ok_at _ _)

theorem accText_ows (t : AccessType) (x : String) (i R : List Char) : ows (accText t x i ++ R) = accText t x i ++ R := by
  obtain ⟨c, u, hu, hc⟩ := accWord_start t
  have : ∃ w, accText t x i ++ R = c :: w := by
    rw [accText, hu]
    exact ⟨_, rfl⟩
  obtain ⟨w, hw⟩ := this
  rw [hw]
  simp only [List.mem_cons, List.not_mem_nil, or_false] at hc
  rcases hc with rfl | rfl | rfl | rfl <;> exact ows_cons (by decide) (by decide)

theorem ows_nl2 (s : List Char) : ows ("\n  ".toList ++ s) = ows s := by
  show ows ('\n' :: ' ' :: ' ' :: s) = _
  rw [ows_nl, ows_space, ows_space]

theorem ows_nl4 (s : List Char) : ows ("\n    ".toList ++ s) = ows s := by
  show ows ('\n' :: ' ' :: ' ' :: ' ' :: ' ' :: s) = _
  rw [ows_nl, ows_space, ows_space, ows_space, ows_space]

theorem text_one (t : AccessType) (x : String) (i : Ex) :
    (NAcc.one t x i).text = "\n  ".toList ++ accText t x (exText i) := rfl

theorem text_sym (names : List String) (vals : List (List Ex)) (stmts : List (AccessType × String × Ex)) :
    (NAcc.sym names vals stmts).text = "\n  ".toList ++ "symmetric".toList ++ " ".toList ++ (linkTexts names vals).1 ++
      " <- ".toList ++ "{# ".toList ++ (linkTexts names vals).2 ++ " #}".toList ++ "\n  {".toList ++
      (stmts.map fun s => "\n    ".toList ++ accText s.1 s.2.1 (exText s.2.2)).flatten ++ "\n  }".toList := rfl

theorem one_read {t : AccessType} {x : String} {i : Ex} (hx : isId x) {j : Bool} (hj : Shape noPred .expr i j) (R : List Char) :
    AtLast (fun k => accDP k (ows ((NAcc.one t x i).text ++ R))) (some ((NAcc.one t x i).toD, ows R)) := by
  rw [text_one, List.append_assoc, ows_nl2, accText_ows]
  exact else_left (then_at (accText_read hx hj t R) (ok_at _ _))

theorem sym_text (names : List String) (vals : List (List Ex)) (stmts : List (AccessType × String × Ex)) (R : List Char) :
    ows ((NAcc.sym names vals stmts).text ++ R) = "symmetric".toList ++ (' ' :: ((linkTexts names vals).1 ++
        (" <- ".toList ++ ("{# ".toList ++ ((linkTexts names vals).2 ++ ' ' :: '#' :: ('}' :: ("\n  {".toList ++
          ((stmts.map fun s => "\n    ".toList ++ accText s.1 s.2.1 (exText s.2.2)).flatten ++
            ("\n  }".toList ++ R))))))))) := by
  have h1 : ∀ s : List Char, " #}".toList ++ s = ' ' :: '#' :: '}' :: s := fun _ => rfl
  have h2 : ∀ s : List Char, " ".toList ++ s = ' ' :: s := fun _ => rfl
  have h3 : ∀ s : List Char, ows ("symmetric".toList ++ s) = "symmetric".toList ++ s :=
    fun s => ows_cons (by decide) (by decide)
  rw [text_sym]
  simp only [List.append_assoc]
  rw [ows_nl2, h3, h2, h1]

theorem sym_body {stmts : List (AccessType × String × Ex)} (hst : ∀ s ∈ stmts, isId s.2.1 ∧ ∃ j, Shape noPred .expr s.2.2 j)
    (R : List Char) :
    AtLast (fun k => repP (fun _ s => accP k s) k [] (ows ((stmts.map fun s => "\n    ".toList ++
      accText s.1 s.2.1 (exText s.2.2)).flatten ++ ("\n  }".toList ++ R))))
      (some (stmts.map fun s => (s.1, [Ex.aref s.2.1 s.2.2]), '}' :: R)) := by
  have h2 : ows ("\n  }".toList ++ R) = '}' :: R := by
    show ows ('\n' :: ' ' :: ' ' :: '}' :: R) = _
    rw [ows_nl, ows_space, ows_space]
    exact ows_cons (by decide) (by decide)
  have hsteps := Steps.many (p := fun k _ s => accP k s)
    (text := fun s : AccessType × String × Ex => "\n    ".toList ++ accText s.1 s.2.1 (exText s.2.2))
    (val := fun s => (s.1, [Ex.aref s.2.1 s.2.2])) stmts [] ("\n  }".toList ++ R)
    (fun l1 s l2 hl R => by
      obtain ⟨g1, j, g2⟩ := hst s (by rw [hl]; simp)
      rw [List.append_assoc, ows_nl4, accText_ows]
      exact accText_read g1 g2 s.1 R)
  rw [List.flatMap_def, h2, List.nil_append] at hsteps
  exact rep_at hsteps (acc_stop fun c t ht hc => by cases ht; revert hc; decide)

/-- The text of a statement is read as the statement. -/
theorem nacc_read {a : NAcc} (h : a.fit) (R : List Char) :
    AtLast (fun k => accDP k (ows (a.text ++ R))) (some (a.toD, ows R)) := by
  cases a with
  | one t x i =>
    obtain ⟨hx, j, hj⟩ := h
    exact one_read hx hj R
  | sym names vals stmts =>
    obtain ⟨hn, hx, hv, he, hs, hst⟩ := h
    rw [sym_text]
    have hb := sym_body hst R
    generalize (stmts.map fun s => "\n    ".toList ++ accText s.1 s.2.1 (exText s.2.2)).flatten ++
      ("\n  }".toList ++ R) = B at hb ⊢
    obtain ⟨⟨_, hw⟩, hl⟩ := links_read hn hx hv he ('}' :: ("\n  {".toList ++ B))
    have hfst : ∀ s c t, "symmetric".toList ++ s = c :: t → c ∉ ['r', 'w', 'y', 'e'] := by
      intro s c t ht
      have : c = 's' := (List.cons.inj ht).1.symm
      subst this
      decide
    refine else_right (then_none (acc_stop fun c t ht => hfst _ c t ht)) ?_
    refine then_at (a := (NAcc.sym names vals stmts).toD) (r := R) ?_ (ok_at _ _)
    refine tok_at (lit_app _ _) (tok_at (hw _).1 (then_at hl ?_))
    refine tok_at (a := "\n  {".toList ++ B) (lit_app "#}" _) ?_
    have h1 : ows ("\n  {".toList ++ B) = '{' :: B := by
      show ows ('\n' :: ' ' :: ' ' :: '{' :: B) = _
      rw [ows_nl, ows_space, ows_space]
      exact ows_cons (by decide) (by decide)
    rw [h1]
    refine tok_at (lit1 rfl) (then_at hb ?_)
    have hne : (stmts.map fun s => (s.1, [Ex.aref s.2.1 s.2.2])) ≠ [] := by simpa using hs
    simp only [if_neg hne]
    exact tok_at (lit1 rfl) (ok_at _ _)

/-! ### From what has been read -/

/-- The statements with one reference each. -/
def nof : AccD → List NAcc
  | .one t refs => refs.flatMap fun u => (partsOf u).map fun p => .one t p.1 p.2
  | .sym names vals stmts => [.sym names vals (stmts.flatMap fun s => s.2.flatMap fun u =>
      (partsOf u).map fun p => (s.1, p.1, p.2))]

theorem foldlM_flat {γ δ σ : Type} {f : σ → γ → Option σ} {g : δ → List γ} {h : σ → δ → Option σ} :
    ∀ (l : List δ) (s : σ), (∀ d ∈ l, ∀ s, h s d = (g d).foldlM f s) → l.foldlM h s = (l.flatMap g).foldlM f s
  | [], s, _ => rfl
  | d :: l, s, H => by
    rw [List.foldlM_cons, List.flatMap_cons, List.foldlM_append, H d (by simp)]
    congr 1
    funext s'
    exact foldlM_flat l s' fun e he => H e (by simp [he])

theorem parts_ref {isPred : String → Bool} {u : Ex} (h : RefFit isPred u) : ∃ x i, u = .aref x i ∧ partsOf u = [(x, i)] := by
  obtain ⟨x, i, rfl, _⟩ := h
  exact ⟨x, i, rfl, rfl⟩

theorem flat_parts {isPred : String → Bool} {γ : Type} {f : String × Ex → γ} {g : Ex → γ} (hfg : ∀ x i, f (x, i) = g (.aref x i)) :
    ∀ {refs : List Ex}, (∀ u ∈ refs, RefFit isPred u) → (refs.flatMap fun u => (partsOf u).map f) = refs.map g
  | [], _ => rfl
  | u :: refs, h => by
    obtain ⟨x, i, rfl, h2⟩ := parts_ref (h u (by simp))
    rw [List.flatMap_cons, h2, flat_parts hfg fun v hv => h v (by simp [hv]), List.map_cons, List.map_cons, hfg]
    rfl

theorem nof_toD {d : AccD} (h : AccFit d) : (nof d).map NAcc.toD = splitAcc d := by
  cases d with
  | one t refs =>
    obtain ⟨_, hr⟩ := h
    rw [nof, List.map_flatMap, splitAcc]
    simp only [List.map_map]
    exact flat_parts (fun _ _ => rfl) hr
  | sym names vals stmts =>
    obtain ⟨_, _, _, _, _, hst⟩ := h
    rw [nof, splitAcc, List.map_singleton, NAcc.toD]
    congr 2
    rw [List.map_flatMap]
    clear *- hst
    induction stmts with
    | nil => rfl
    | cons s l ih =>
      rw [List.flatMap_cons, List.flatMap_cons, ih fun s hs => hst s (by simp [hs])]
      congr 1
      rw [List.map_flatMap]
      simp only [List.map_map]
      exact flat_parts (fun _ _ => rfl) (hst s (by simp)).2

end Verif.Proofs
