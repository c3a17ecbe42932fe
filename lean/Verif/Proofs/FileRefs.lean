import Verif.Proofs.FileSym

/-!
The references of the accesses of a process.
-/

namespace Verif.Proofs

open Verif.Model Verif.Spec

variable {isPred : String → Bool}

theorem shape_notDom {nt : NT} {e : Ex} {i : Bool} (h : Shape isPred nt e i) : ∀ b, e ≠ .natDom b := by
  induction h with
  | name _ _ => simp
  | num => simp
  | aref _ _ _ => simp
  | parI _ _ => simp
  | parB _ _ => simp
  | cpar _ _ => simp
  | val _ ih => exact ih
  | call _ _ _ _ _ => simp
  | pow _ ih => exact ih
  | @neg c w f e i hw _ _ =>
    intro b
    cases c <;> simp only [negOps, List.mem_cons, Prod.mk.injEq, List.not_mem_nil, or_false] at hw
    · rcases hw with ⟨_, rfl⟩ | ⟨_, rfl⟩ <;> simp
    · obtain ⟨_, rfl⟩ := hw; simp
  | up _ _ ih => exact ih
  | @chain nt C w f a b i j hC hw _ _ _ _ _ =>
    cases nt <;> simp only [chainOf, Option.some.injEq, reduceCtorEq] at hC <;> subst hC
    all_goals
      simp only [List.mem_cons, Prod.mk.injEq, List.not_mem_nil, or_false] at hw
      first
        | (obtain ⟨_, rfl⟩ := hw; simp; done)
        | ((rcases hw with ⟨_, rfl⟩ | ⟨_, rfl⟩ <;> simp); done)
        | (rcases hw with ⟨_, rfl⟩ | ⟨_, rfl⟩ | ⟨_, rfl⟩ <;> simp)
  | sum _ ih => exact ih
  | @cmp w o a b i j hw _ _ hn _ _ =>
    intro b'
    cases o <;> simp only [cmpTree] <;> split <;> simp [CmpOp.tree]
  | comp _ ih => exact ih
  | quant _ _ _ _ _ _ => simp
  | biimp _ ih => exact ih
  | iif _ _ _ _ _ _ => simp

/-- Texts of values in place of names are the text of the expression with the values in place of names. -/
theorem strEx_subst {σ : String → Option Ex} (hσ : ∀ x e, σ x = some e → ∀ b, e ≠ .natDom b) (e : Ex) :
    strEx (fun x => (σ x).map exText) e = exText (substEx σ e) := by
  unfold exText
  induction e with
  | name x =>
    cases h : σ x with
    | none => simp [strEx, substEx, h]
    | some e => simp [strEx, substEx, h]
  | num u => rfl
  | arith o b c hb hc => cases o <;> simp only [strEx, substEx, hb, hc]
  | quant q x r d hr hd =>
    by_cases hn : ∃ b, r = .natDom b
    · obtain ⟨b, rfl⟩ := hn
      have hb : strEx (fun x => (σ x).map fun e => strEx (fun _ => none) e) b = strEx (fun _ => none) (substEx σ b) := by
        simp only [strEx, substEx] at hr
        exact List.append_cancel_left hr
      simp only [strEx, substEx, hb, hd]
    · have h1 : ∀ b, substEx σ r ≠ .natDom b := by
        intro b
        cases r with
        | name y =>
          cases h : σ y with
          | none => simp [substEx, h]
          | some e => simpa [substEx, h] using hσ y e h b
        | natDom b => exact absurd ⟨b, rfl⟩ hn
        | _ => simp [substEx]
      have h2 : ∀ b, r ≠ .natDom b := fun b hb => hn ⟨b, hb⟩
      have e1 : ∀ (lets : String → Option (List Char)) (r d : Ex), (∀ b, r ≠ .natDom b) → strEx lets (.quant q x r d) =
          (quantText q).toList ++ " ".toList ++ x.toList ++ " < ".toList ++ " : ".toList ++ strEx lets d := by
        intro lets r d h
        cases r <;> first | rfl | exact absurd rfl (h _)
      rw [e1 _ _ _ h2, substEx, e1 _ _ _ h1, hd]
  | castB b h => simp only [strEx, substEx, h]
  | castI b h => simp only [strEx, substEx, h]
  | not b h => simp only [strEx, substEx, h]
  | neg b h => simp only [strEx, substEx, h]
  | and b c hb hc => simp only [strEx, substEx, hb, hc]
  | or b c hb hc => simp only [strEx, substEx, hb, hc]
  | imp b c hb hc => simp only [strEx, substEx, hb, hc]
  | iff b c hb hc => simp only [strEx, substEx, hb, hc]
  | xor b c hb hc => simp only [strEx, substEx, hb, hc]
  | cmp l e g b c hb hc => simp only [strEx, substEx, hb, hc]
  | natDom b h => simp only [strEx, substEx, h]
  | iif b c d hb hc hd => simp only [strEx, substEx, hb, hc, hd]
  | aref a i h => simp only [strEx, substEx, h]

theorem scope_val (names : List String) (v : List Ex) : scopeLets names v = fun x => (valOf names v x).map exText := by
  funext x
  simp only [scopeLets, valOf, Option.map_map]
  rfl

theorem valOf_mem {names : List String} {v : List Ex} {x : String} {e : Ex} (h : valOf names v x = some e) : e ∈ v := by
  simp only [valOf, Option.map_eq_some_iff] at h
  obtain ⟨p, hp, rfl⟩ := h
  have := List.mem_of_find?_eq_some hp
  rw [List.mem_reverse] at this
  exact (List.of_mem_zip this).2

/-! ### Conditions -/

theorem accFit_nof {d : AccD} (h : AccFit d) : ∀ a ∈ nof d, a.fit := by
  cases d with
  | one t refs =>
    obtain ⟨_, hr⟩ := h
    intro a ha
    simp only [nof, List.mem_flatMap, List.mem_map] at ha
    obtain ⟨u, hu, p, hp, rfl⟩ := ha
    obtain ⟨x, i, rfl, h1, h2⟩ := hr u hu
    simp only [partsOf, List.mem_singleton] at hp
    subst hp
    exact ⟨named_id h1, fits_shape h2⟩
  | sym names vals stmts =>
    obtain ⟨h1, h2, h3, h4, h5, h6⟩ := h
    intro a ha
    simp only [nof, List.mem_singleton] at ha
    subst ha
    refine ⟨h1, fun x hx => named_id (h2 x hx), h3, fun v hv => ⟨(h4 v hv).1, fun e he => fits_shape ((h4 v hv).2 e he)⟩, ?_, ?_⟩
    · cases stmts with
      | nil => exact absurd rfl h5
      | cons s l =>
        obtain ⟨g1, g2⟩ := h6 s (by simp)
        cases hs : s.2 with
        | nil => exact absurd hs g1
        | cons u us =>
          obtain ⟨x, i, rfl, _⟩ := g2 u (by rw [hs]; simp)
          simp [hs, partsOf]
    · intro s hs
      simp only [List.mem_flatMap, List.mem_map] at hs
      obtain ⟨q, hq, u, hu, p, hp, rfl⟩ := hs
      obtain ⟨x, i, rfl, g1, g2⟩ := (h6 q hq).2 u hu
      simp only [partsOf, List.mem_singleton] at hp
      subst hp
      exact ⟨named_id g1, fits_shape g2⟩

theorem fit_sized {a : NAcc} (h : a.fit) : a.sized := by
  cases a with
  | one => trivial
  | sym names vals stmts => exact fun v hv => (h.2.2.2.1 v hv).1

theorem fit_full {a : NAcc} (h : a.fit) : a.full := by
  cases a with
  | one => trivial
  | sym names vals stmts => exact ⟨h.2.2.1, h.2.2.2.2.1⟩

theorem nof_ne {d : AccD} (h : AccFit d) : nof d ≠ [] := by
  cases d with
  | one t refs =>
    obtain ⟨h1, h2⟩ := h
    cases refs with
    | nil => exact absurd rfl h1
    | cons u us =>
      obtain ⟨x, i, rfl, _⟩ := h2 u (by simp)
      simp [nof, partsOf]
  | sym names vals stmts => simp [nof]

/-! ### Accesses -/

theorem split_add {d : AccD} (h : AccFit d) (st : AccSt) : addAccD st d = (splitAcc d).foldlM addAccD st := by
  cases d with
  | one t refs =>
    have : ∀ (refs : List Ex) (st : AccSt), refs.foldlM (addAccess (fun _ => none) t) st =
        (refs.map fun u => AccD.one t [u]).foldlM addAccD st := by
      intro refs
      induction refs with
      | nil => intro st; rfl
      | cons u us ih =>
        intro st
        rw [List.map_cons, List.foldlM_cons, List.foldlM_cons]
        have : addAccD st (AccD.one t [u]) = addAccess (fun _ => none) t st u := by
          simp [addAccD]
        rw [this]
        congr 1
        funext s
        exact ih s
    exact this refs st
  | sym names vals stmts =>
    simp only [splitAcc, List.foldlM_cons, List.foldlM_nil, addAccD]
    have : ∀ (stmts : List (AccessType × List Ex)) (st : AccSt),
        (stmts.foldlM (fun st p => p.2.foldlM (addSymRef names vals p.1) st) st) =
        ((stmts.flatMap fun s => s.2.map fun u => (s.1, [u])).foldlM
          (fun st p => p.2.foldlM (addSymRef names vals p.1) st) st) := by
      intro stmts st
      refine foldlM_flat stmts st fun s _ st => ?_
      induction s.2 generalizing st with
      | nil => rfl
      | cons u us ih =>
        rw [List.map_cons, List.foldlM_cons, List.foldlM_cons]
        simp only [List.foldlM_cons, List.foldlM_nil]
        have : (addSymRef names vals s.1 st u >>= fun a => pure a) = addSymRef names vals s.1 st u := by simp
        rw [this]
        congr 1
        funext s'
        exact ih s'
    rw [this]
    simp

theorem nacc_refs {d : AccD} (h : AccFit d) :
    ((nof d).flatMap NAcc.accs).map (fun a => (a.2.1, a.2.2)) = (refsOf d).map fun p => (p.1, exText p.2) := by
  cases d with
  | one t refs =>
    simp only [nof, refsOf, List.flatMap_assoc, List.map_flatMap]
    congr 1
    funext u
    cases u <;> simp [partsOf, NAcc.accs]
  | sym names vals stmts =>
    obtain ⟨_, _, _, h4, _, _⟩ := h
    simp only [nof, refsOf, List.flatMap_cons, List.flatMap_nil, List.append_nil, NAcc.accs, List.flatMap_assoc,
      List.map_flatMap, List.flatMap_map, List.map_map]
    congr 1
    funext s
    congr 1
    funext u
    cases u <;> simp only [partsOf, List.flatMap_nil, List.map_nil, List.flatMap_cons, List.append_nil, List.map_cons]
    all_goals try (induction vals <;> simp_all; done)
    rename_i x i
    clear *- h4
    induction vals with
    | nil => rfl
    | cons v vs ih =>
      rw [List.map_cons, List.flatMap_cons, ih fun w hw => h4 w (by simp [hw])]
      simp only [Function.comp, List.singleton_append, List.cons.injEq, Prod.mk.injEq, true_and, and_true]
      rw [scope_val]
      refine strEx_subst ?_ i
      intro y e he
      obtain ⟨j, hj⟩ := fits_shape ((h4 v (by simp)).2 e (valOf_mem he))
      exact shape_notDom hj

/-- What is known about the accesses of a process. -/
theorem accs_load {l : List AccD} (hl : ∀ d ∈ l, AccFit d) :
    ∃ st, l.foldlM addAccD ⟨[], []⟩ = some st ∧
      accsText st (st.accs.length + 1) 0 = some ((l.flatMap nof).flatMap NAcc.text) ∧
      ∀ r < (l.flatMap refsOf).length, vblName st r = exText (refEx (refAt l) r) := by
  have hfit : ∀ a ∈ l.flatMap nof, a.fit := by
    intro a ha
    simp only [List.mem_flatMap] at ha
    obtain ⟨d, hd, ha⟩ := ha
    exact accFit_nof (hl d hd) a ha
  have h1 : l.foldlM addAccD ⟨[], []⟩ = ((l.flatMap nof).map NAcc.toD).foldlM addAccD ⟨[], []⟩ := by
    rw [foldlM_flat (f := addAccD) (g := splitAcc) l _ fun d hd s => split_add (hl d hd) s]
    congr 1
    rw [List.map_flatMap]
    clear hfit
    induction l with
    | nil => rfl
    | cons d l ih =>
      rw [List.flatMap_cons, List.flatMap_cons, nof_toD (hl d (by simp)), ih fun e he => hl e (by simp [he])]
  have h2 := add_all (l.flatMap nof) [] [] fun a ha => fit_sized (hfit a ha)
  have h3 := accs_text (l.flatMap nof) [] [] ((l.flatMap nof).flatMap NAcc.accs |>.length.succ)
    (fun a ha => fit_full (hfit a ha)) (by simp) (Nat.lt_succ_self _)
  simp only [List.nil_append, List.length_nil] at h2 h3
  refine ⟨_, h1.trans h2, h3, ?_⟩
  intro r hr
  have h4 : ((l.flatMap nof).flatMap NAcc.accs).map (fun a => (a.2.1, a.2.2)) =
      (l.flatMap refsOf).map fun p => (p.1, exText p.2) := by
    clear hfit h1 h2 h3 hr
    induction l with
    | nil => rfl
    | cons d l ih =>
      rw [List.flatMap_cons, List.flatMap_cons, List.flatMap_append, List.map_append, List.map_append,
        nacc_refs (hl d (by simp)), ih fun e he => hl e (by simp [he])]
  have h5 := congrArg (fun z => z[r]?) h4
  simp only [List.getElem?_map] at h5
  rw [List.getElem?_eq_getElem hr, Option.map_some, Option.map_eq_some_iff] at h5
  obtain ⟨a, ha, hp⟩ := h5
  unfold vblName
  simp only [ha]
  have h6 : refAt l r = (l.flatMap refsOf)[r] := by
    unfold refAt
    rw [List.getElem?_eq_getElem hr, Option.getD_some]
  simp only [Prod.mk.injEq] at hp
  rw [refEx, h6, hp.1, hp.2]
  rfl

/-! ### Texts of chosen actions -/

theorem actText_congr {pc : PcSymm} {name name' : ℕ → List Char} (h : ∀ r < pc.access.length, name r = name' r)
    (vals : List ℕ) : actText pc name vals = actText pc name' vals := by
  unfold actText
  cases h1 : readList pc vals with
  | none => rfl
  | some rs =>
    cases h2 : writeList pc vals with
    | none => rfl
    | some ws =>
      simp only [Option.some.injEq]
      have hr : ∀ r ∈ rs, name r.1 = name' r.1 := by
        intro r hr
        obtain ⟨i, hi, hf⟩ := (mem_mapM_iff h1 r).1 hr
        simp only [Option.bind_eq_some_iff, Option.map_eq_some_iff] at hf
        obtain ⟨acc, _, g, _, rfl⟩ := hf
        exact h _ (List.mem_range.1 hi)
      have hw : ∀ w ∈ ws, name w.1 = name' w.1 := by
        intro w hw
        obtain ⟨e, _, hf⟩ := (mem_mapM_iff h2 w).1 hw
        simp only [Option.bind_eq_some_iff, Option.map_eq_some_iff] at hf
        obtain ⟨acc, ha, g, _, a, _, rfl⟩ := hf
        exact h _ (List.getElem?_eq_some_iff.1 ha).1
      have e1 : ((rs.filter fun r => r.2.1.syntReadCk).map fun r => name r.1 ++ "==".toList ++ Nat.toDigits 10 r.2.2) =
          (rs.filter fun r => r.2.1.syntReadCk).map fun r => name' r.1 ++ "==".toList ++ Nat.toDigits 10 r.2.2 :=
        List.map_congr_left fun r hm => by rw [hr r (List.mem_of_mem_filter hm)]
      have e2 : ((mentioned ws).flatMap fun w => name w.1 ++ ":=".toList ++
          (if w.2.1.randomWriteCk then "_".toList else Nat.toDigits 10 w.2.2.2) ++ "; ".toList) =
          (mentioned ws).flatMap fun w => name' w.1 ++ ":=".toList ++
          (if w.2.1.randomWriteCk then "_".toList else Nat.toDigits 10 w.2.2.2) ++ "; ".toList := by
        rw [List.flatMap_def, List.flatMap_def]
        congr 1
        exact List.map_congr_left fun w hm => by rw [hw w (List.mem_of_mem_filter hm)]
      rw [e1, e2]

theorem puppetText_congr {pc : PcSymm} {name name' : ℕ → List Char} (h : ∀ r < pc.access.length, name r = name' r)
    (acts : List (List ℕ)) : puppetText pc name acts = puppetText pc name' acts := by
  have : actText pc name = actText pc name' := funext (actText_congr h)
  unfold puppetText
  rw [this]

end Verif.Proofs
