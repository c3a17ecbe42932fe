import Verif.Proofs.FileRefs

/-!
Reading of the sections with actions.
-/

namespace Verif.Proofs

open Verif.Model Verif.Spec

variable {isPred : String → Bool}

theorem fol_actto {t : List Char} : Fol isPred .expr (' ' :: '-' :: '=' :: '>' :: t) := by
  have ho : ows (' ' :: '-' :: '=' :: '>' :: t) = '-' :: '=' :: '>' :: t := by
    rw [ows_space]; exact ows_cons (by decide) (by decide)
  refine ⟨nameEnd_cons (by decide) (by decide) ho (by decide), fun m hm => ?_,
    fun _ => stopC_head ho (by decide)⟩
  simp only [under, List.mem_cons, List.not_mem_nil, or_false] at hm
  rcases hm with rfl | rfl | rfl | rfl | rfl | rfl | rfl
  all_goals first
    | exact stops_head ho (by simp only [heads]; decide)
    | skip
  intro C hC f r' hf
  simp only [chainOf, Option.some.injEq] at hC
  subst hC
  rw [ho] at hf
  simp [firstLit, lit, litL] at hf
  rw [← hf.2, ows_cons (by decide) (by decide)]
  refine prod_fail ?_
  obtain ⟨K, hK⟩ := pow_fail (isPred := isPred) (b := false) (c := '=') (t := '>' :: t) (by decide)
  refine reads_rule (K := K) rfl fun k hk => ?_
  have : firstLit (negOps false) ('=' :: '>' :: t) = none := by
    simp [firstLit, negOps, lit, litL]
  simp [ruleP, this, hK k hk]

theorem lit_us (s : List Char) : lit "_" ('_' :: s) = some s := rfl

theorem lit_semi (s : List Char) : lit ";" (';' :: s) = some s := rfl

theorem lit_open (s : List Char) : lit "(" ('(' :: s) = some s := rfl

theorem lit_close (s : List Char) : lit ")" (')' :: s) = some s := rfl

theorem refFit_ok {u : Ex} (h : RefFit isPred u) : ∃ p, u = .aref p.1 p.2 ∧ RefOk isPred p := by
  obtain ⟨x, i, rfl, h1, h2⟩ := h
  exact ⟨(x, i), rfl, named_id h1, fits_shape h2⟩

theorem vref_none_us (t : List Char) : Reads isPred .vref ('_' :: t) none := by
  have hid : ident ('_' :: t) = none := by simp [ident, show Char.isAlpha '_' = false by decide]
  refine reads_rule (K := 0) rfl fun k _ => ?_
  simp [ruleP, hid, tok]

theorem asgStr_read {a : Asg} (h : AsgFit isPred a) (t : List Char) :
    AtLast (fun k => asgP isPred k (asgStr a ++ ';' :: t)) (some (a, ';' :: t)) := by
  cases a with
  | set v e =>
    obtain ⟨h1, h2⟩ := h
    obtain ⟨p, rfl, hp⟩ := refFit_ok h1
    obtain ⟨i, hi⟩ := fits_shape h2
    have ht := text_shape hi
    obtain ⟨j, K', hK'⟩ := ht.close (c := ';') (by simp) t
    obtain ⟨K, hK⟩ := vref_read hp (":=".toList ++ (exText e ++ ';' :: t))
    have hd : defeqP (":=".toList ++ (exText e ++ ';' :: t)) = some (exText e ++ ';' :: t) := by
      have h1 : ows (":=".toList ++ (exText e ++ ';' :: t)) = ":=".toList ++ (exText e ++ ';' :: t) :=
        ows_cons (by decide) (by decide)
      rw [defeqP, h1, lit, litL_app, Option.map_some, ht.ows]
    have hl : lit "_" (exText e ++ ';' :: t) = none := by
      obtain ⟨c, u, he, hc⟩ := ht.start
      rw [he]; exact lit_head (c := '_') (u := []) (by simp) (Ne.symm (startC_ne hc (by decide)))
    refine ⟨K + K', fun k hk => ?_⟩
    simp only [asgStr, List.append_assoc]
    simp only [asgP, hK k (by omega), hd, hl, hK' k (by omega)]
  | rand v =>
    obtain ⟨p, rfl, hp⟩ := refFit_ok h
    have := asg_rand hp t
    simp only [asgStr, List.append_assoc]
    exact this
  | wildAll =>
    obtain ⟨K, hK⟩ := vref_none_us (isPred := isPred) (':' :: '=' :: '_' :: ';' :: t)
    refine ⟨K, fun k hk => ?_⟩
    have hd : defeqP (':' :: '=' :: '_' :: ';' :: t) = some ('_' :: ';' :: t) := by
      rw [defeqP, ows_cons (by decide) (by decide)]
      show some (ows ('_' :: ';' :: t)) = _
      rw [ows_cons (by decide) (by decide)]
    show asgP isPred k ('_' :: ':' :: '=' :: '_' :: ';' :: t) = _
    simp only [asgP, hK k hk, lit_us, hd, Option.bind_some]
  | wild =>
    obtain ⟨K, hK⟩ := vref_none_us (isPred := isPred) (';' :: t)
    refine ⟨K, fun k hk => ?_⟩
    have hd : defeqP (';' :: t) = none := by
      rw [defeqP, ows_cons (by decide) (by decide)]
      rfl
    show asgP isPred k ('_' :: ';' :: t) = _
    simp only [asgP, hK k hk, lit_us, hd, Option.bind_none]

theorem asgStr_start {a : Asg} (h : AsgFit isPred a) (s : List Char) : ows (asgStr a ++ s) = asgStr a ++ s := by
  have : ∀ v, RefFit isPred v → ∃ c t, exText v = c :: t ∧ isBlank c = false ∧ c ≠ '/' := by
    intro v hv
    obtain ⟨p, rfl, hp, _⟩ := refFit_ok hv
    obtain ⟨c, t, h1, h2⟩ := id_start hp
    refine ⟨c, t ++ '[' :: (strEx (fun _ => none) p.2 ++ [']']), ?_, alpha_ok h2⟩
    simp [exText, strEx, h1]
  cases a with
  | set v e =>
    obtain ⟨c, t, h1, h2, h3⟩ := this v h.1
    simp only [asgStr, h1, List.cons_append]
    exact ows_cons h2 h3
  | rand v =>
    obtain ⟨c, t, h1, h2, h3⟩ := this v h
    simp only [asgStr, h1, List.cons_append]
    exact ows_cons h2 h3
  | wildAll => exact ows_cons (by decide) (by decide)
  | wild => exact ows_cons (by decide) (by decide)

/-- The text of the assignments. -/
def asgsStr (l : List Asg) : List Char := l.flatMap fun a => ' ' :: (asgStr a ++ [';'])

theorem asgsStr_read : ∀ (l acc : List Asg) (t : List Char), (∀ a ∈ l, AsgFit isPred a) →
    ∃ K, ∀ k ≥ K, ∀ m ≥ l.length + 1,
      asgsP isPred k m acc (ows (asgsStr l ++ ' ' :: ')' :: t)) = some (acc ++ l, ')' :: t)
  | [], acc, t, _ => by
    obtain ⟨K, hK⟩ := asg_none (isPred := isPred) t
    refine ⟨K, fun k hk m hm => ?_⟩
    obtain ⟨m, rfl⟩ : ∃ j, m = j + 1 := ⟨m - 1, by omega⟩
    have ho : ows (asgsStr [] ++ ' ' :: ')' :: t) = ')' :: t := by
      show ows (' ' :: ')' :: t) = _
      rw [ows_space]; exact ows_cons (by decide) (by decide)
    rw [ho]
    simp only [asgsP, hK k hk, List.append_nil]
  | a :: l, acc, t, h => by
    have ha := h a (by simp)
    obtain ⟨K, hK⟩ := asgStr_read ha (asgsStr l ++ ' ' :: ')' :: t)
    obtain ⟨K', hK'⟩ := asgsStr_read l (acc ++ [a]) t fun b hb => h b (by simp [hb])
    refine ⟨K + K', fun k hk m hm => ?_⟩
    obtain ⟨m, rfl⟩ : ∃ j, m = j + 1 := ⟨m - 1, by simp at hm; omega⟩
    have h0 : asgsStr (a :: l) ++ ' ' :: ')' :: t = ' ' :: (asgStr a ++ ';' :: (asgsStr l ++ ' ' :: ')' :: t)) := by
      simp [asgsStr]
    have ho1 : ows (';' :: (asgsStr l ++ ' ' :: ')' :: t)) = ';' :: (asgsStr l ++ ' ' :: ')' :: t) :=
      ows_cons (by decide) (by decide)
    have := hK' k (by omega) m (by simp at hm; omega)
    rw [h0, ows_space, asgStr_start ha]
    simp only [asgsP, hK k (by omega), ho1, lit_semi, this]
    simp

theorem actStr_read {T : ActTree} (h : TreeFit isPred T) (t : List Char) :
    AtLast (fun k => actP isPred k ("( ".toList ++ actStr T ++ " )".toList ++ t)) (some (T, t)) := by
  obtain ⟨o, g, l⟩ := T
  obtain ⟨h1, h2⟩ := h
  obtain ⟨i, hi⟩ := fits_shape h1
  have ht := text_shape hi
  obtain ⟨j, hj⟩ := ht.read
  simp only at h2 hj hi ht
  set arrow : List Char := if o then ['-', '=', '>'] else ['-', '-', '>'] with ha
  set U : List Char := asgsStr l ++ ' ' :: ')' :: t with hU
  have hfol : Fol isPred .expr (' ' :: (arrow ++ U)) := by
    cases o
    · exact fol_arrow rfl
    · exact fol_actto
  obtain ⟨K, hK⟩ := hj (' ' :: (arrow ++ U)) hfol fun _ => hfol
  obtain ⟨K', hK'⟩ := asgsStr_read l [] t h2
  refine ⟨K + K' + l.length + 1, fun k hk => ?_⟩
  have e1 : "( ".toList ++ actStr ⟨o, g, l⟩ ++ " )".toList ++ t = '(' :: ' ' :: (exText g ++ ' ' :: (arrow ++ U)) := by
    have : actStr ⟨o, g, l⟩ = exText g ++ ' ' :: (arrow ++ asgsStr l) := by
      simp only [actStr, ha, asgsStr]
      cases o <;> simp
    rw [this, hU]
    simp
  have e2 : ows (' ' :: (exText g ++ ' ' :: (arrow ++ U))) = exText g ++ ' ' :: (arrow ++ U) := by
    rw [ows_space]; exact ht.ows _
  have e3 : firstLit [("-->", false), ("-=>", true)] (ows (' ' :: (arrow ++ U))) = some (o, U) := by
    rw [ows_space]
    cases o
    · show firstLit _ (ows ('-' :: '-' :: '>' :: U)) = _
      rw [ows_cons (by decide) (by decide)]
      simp [firstLit, lit, litL]
    · show firstLit _ (ows ('-' :: '=' :: '>' :: U)) = _
      rw [ows_cons (by decide) (by decide)]
      simp [firstLit, lit, litL]
  have e5 := hK' k (by omega) k (by omega)
  rw [← hU] at e5
  rw [e1]
  simp only [actP, lit_open, e2, hK k (by omega), e3, e5, lit_close, List.nil_append]

/-! ### Sections -/

/-- The word of a section. -/
def kindWord : ActKind → String
  | .shadow => "shadow"
  | .direct => "direct"
  | .puppet => "puppet"
  | .permit => "permit"
  | .forbid => "forbid"
  | .conflict => "conflict"

theorem head_read (kd : ActKind) (s : List Char) :
    firstAlt actHeads ((kindWord kd).toList ++ ':' :: s) = some (kd, s) := by
  have hw : ∀ s, ws (':' :: s) = none := by
    intro s
    simp [ws, ows_cons (c := ':') (s := s) (by decide) (by decide)]
  cases kd
  all_goals
    simp [actHeads, firstAlt, kindWord, lit, litL, firstLit, actColon, hw, actionT, puppetT]

/-- A section with any actions that are read. -/
theorem section_read (kd : ActKind) (l : List (List Char × ActTree))
    (hl : ∀ x ∈ l, (∃ u, x.1 = '(' :: u) ∧ ∀ rest, AtLast (fun k => actP isPred k (x.1 ++ rest)) (some (x.2, rest)))
    (R : List Char) :
    AtLast (fun k => actDefP isPred k ((kindWord kd).toList ++ ':' ::
      ((l.flatMap fun x => "\n    ".toList ++ x.1) ++ ("\n    ;".toList ++ R)))) (some ((kd, l.map Prod.snd), R)) := by
  obtain ⟨K, hK⟩ := acts_read l [] R hl
  refine ⟨K + l.length + 1, fun k hk => ?_⟩
  have h1 := hK k (by omega) k (by omega)
  simp only [actDefP, head_read, tokR, h1, end_at, okR, List.nil_append]

theorem sect_read {w : String} {kd : ActKind} (hw : w = kindWord kd) {l : List ActTree} (hne : l ≠ [])
    (hl : ∀ T ∈ l, TreeFit isPred T) (R : List Char) :
    AtLast (fun k => actDefP isPred k (ows (sectText w l ++ R))) (some ((kd, l), R)) := by
  subst hw
  have h := section_read (isPred := isPred) kd (l.map fun T => ("( ".toList ++ actStr T ++ " )".toList, T)) (by
    intro x hx
    simp only [List.mem_map] at hx
    obtain ⟨T, hT, rfl⟩ := hx
    exact ⟨⟨_, rfl⟩, fun rest => actStr_read (hl T hT) rest⟩) R
  have h2 : (l.map fun T => ("( ".toList ++ actStr T ++ " )".toList, T)).map Prod.snd = l := by
    rw [List.map_map]; exact List.map_id l
  have h3 : ((l.map fun T => ("( ".toList ++ actStr T ++ " )".toList, T)).flatMap fun x => "\n    ".toList ++ x.1) =
      l.flatMap fun T => "\n    ( ".toList ++ actStr T ++ " )".toList := by
    rw [List.flatMap_map]
    rfl
  rw [h2, h3] at h
  have h4 : ows (sectText (kindWord kd) l ++ R) = (kindWord kd).toList ++ ':' ::
      ((l.flatMap fun T => "\n    ( ".toList ++ actStr T ++ " )".toList) ++ ("\n    ;".toList ++ R)) := by
    rw [sectText, if_neg hne]
    simp only [List.append_assoc]
    show ows ('\n' :: ' ' :: ' ' :: _) = _
    rw [ows_nl, ows_space, ows_space]
    cases kd <;> exact ows_cons (by decide) (by decide)
  rw [h4]
  exact h

/-- The section with the chosen actions. -/
theorem puppetSect_read {pc : PcSymm} {ref : ℕ → String × Ex} {acts : List (List ℕ)} {t : List Char}
    (hR : RefsOk isPred pc ref) (h : puppetText pc (fun r => exText (refEx ref r)) acts = some t)
    (hr : ∀ vals ∈ acts, guardEqs pc ref vals ≠ []) (hne : acts ≠ []) :
    ∃ Ts, Ts ≠ [] ∧ List.Forall₂ (IsTree pc ref) acts Ts ∧ (∃ u, ∀ R, ows (t ++ R) = 'p' :: 'u' :: (u ++ R)) ∧
      ∀ R, AtLast (fun k => actDefP isPred k (ows (t ++ R))) (some ((.puppet, Ts), R)) := by
  unfold puppetText at h
  rw [Option.map_eq_some_iff] at h
  obtain ⟨ts, hts, h⟩ := h
  have key : ∃ l : List (List Char × ActTree), l.map Prod.fst = ts ∧
      List.Forall₂ (IsTree pc ref) acts (l.map Prod.snd) ∧
      ∀ x ∈ l, (∃ u, x.1 = '(' :: u) ∧ ∀ rest, AtLast (fun k => actP isPred k (x.1 ++ rest)) (some (x.2, rest)) := by
    clear h hne
    induction acts generalizing ts with
    | nil => simp at hts; subst hts; exact ⟨[], rfl, .nil, by simp⟩
    | cons a acts ih =>
      rw [List.mapM_cons] at hts
      simp only [Option.bind_eq_bind, Option.bind_eq_some_iff, Option.pure_def, Option.some.injEq] at hts
      obtain ⟨y, hy, ys, hys, rfl⟩ := hts
      obtain ⟨l, h1, h2, h3⟩ := ih (fun v hv => hr v (by simp [hv])) ys hys
      obtain ⟨T, hT, hu, hrd⟩ := actText_read hR hy (hr a (by simp))
      refine ⟨(y, T) :: l, by simp [h1], .cons hT h2, ?_⟩
      intro x hx
      rcases List.mem_cons.1 hx with rfl | hx
      · exact ⟨hu, hrd⟩
      · exact h3 x hx
  obtain ⟨l, h1, h2, h3⟩ := key
  have hl : l ≠ [] := by
    rintro rfl
    have := h2.length_eq
    simp at this
    exact hne this
  have hts' : ts ≠ [] := by
    rintro rfl
    exact hl (by simpa using h1)
  rw [if_neg hts'] at h
  have hfl : (ts.flatMap fun t => "\n    ".toList ++ t) = l.flatMap fun x => "\n    ".toList ++ x.1 := by
    rw [← h1, List.flatMap_map]
  have hows : ∀ R, ows (t ++ R) = (kindWord .puppet).toList ++ ':' ::
      ((l.flatMap fun x => "\n    ".toList ++ x.1) ++ ("\n    ;".toList ++ R)) := by
    intro R
    rw [← h, hfl]
    simp only [List.append_assoc]
    show ows ('\n' :: ' ' :: ' ' :: _) = _
    rw [ows_nl, ows_space, ows_space]
    exact ows_cons (by decide) (by decide)
  refine ⟨l.map Prod.snd, by simpa using hl, h2, ⟨"ppet:".toList ++ ((l.flatMap fun x => "\n    ".toList ++ x.1) ++
    "\n    ;".toList), ?_⟩, ?_⟩
  · intro R
    rw [hows, List.append_assoc, List.append_assoc]
    rfl
  · intro R
    rw [hows]
    exact section_read .puppet l h3 R

end Verif.Proofs
