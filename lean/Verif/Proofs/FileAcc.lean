import Verif.Spec.File
import Verif.Proofs.FileRead
import Mathlib.Data.List.TakeWhile

/-!
The text of the accesses of a process, and its reading.
-/

namespace Verif.Proofs

open Verif.Model Verif.Spec

/-! ### Conditions -/

theorem named_id {x : String} (h : Named x) : isId x := by
  unfold Named ident at h
  cases hx : x.toList with
  | nil => rw [hx] at h; simp at h
  | cons c t =>
    rw [hx] at h
    simp only at h
    by_cases hc : c.isAlpha = true
    · rw [if_pos hc] at h
      simp only [Option.some.injEq, Prod.mk.injEq] at h
      refine ⟨c, t, hx, hc, ?_⟩
      have := h.2
      exact List.dropWhile_eq_nil_iff.1 this
    · rw [if_neg hc] at h; cases h

theorem fits_shape {isPred : String → Bool} {e : Ex} (h : Fits isPred .expr e) : ∃ i, Shape isPred .expr e i := by
  obtain ⟨⟨k, s, i, r, hp⟩, ht⟩ := h
  exact ⟨i, parse_shape k .expr s _ hp ht⟩

theorem fits_sum {isPred : String → Bool} {c : Bool} {e : Ex} (h : Fits isPred (.sum c) e) :
    ∃ i, Shape isPred (.sum c) e i := by
  obtain ⟨⟨k, s, i, r, hp⟩, ht⟩ := h
  exact ⟨i, (parse_shape k (.sum c) s _ hp).2.2 ht⟩

/-! ### The accesses that have been read -/

/-- An access statement with one reference, or a block of them. -/
inductive NAcc where
  | one (t : AccessType) (x : String) (i : Ex)
  | sym (names : List String) (vals : List (List Ex)) (stmts : List (AccessType × String × Ex))

/-- As it was read. -/
def NAcc.toD : NAcc → AccD
  | .one t x i => .one t [.aref x i]
  | .sym names vals stmts => .sym names vals (stmts.map fun s => (s.1, [.aref s.2.1 s.2.2]))

/-- The accesses of a statement. -/
def NAcc.accs : NAcc → List AccM
  | .one t x i => [(t, x, exText i)]
  | .sym names vals stmts => stmts.flatMap fun s => vals.map fun v => (s.1, s.2.1, strEx (scopeLets names v) s.2.2)

/-- The links of a statement. -/
def NAcc.links (start : ℕ) : NAcc → List LinkM
  | .one _ _ _ => []
  | .sym names vals stmts => [⟨vals.length, (linkTexts names vals).1, (linkTexts names vals).2,
      stmts.map fun s => exText s.2.2, (List.range (stmts.length * vals.length)).map (start + ·)⟩]

/-- The links of all statements. -/
def linksOf : ℕ → List NAcc → List LinkM
  | _, [] => []
  | start, a :: l => a.links start ++ linksOf (start + a.accs.length) l

/-- Tuples of the right size. -/
def NAcc.sized : NAcc → Prop
  | .one _ _ _ => True
  | .sym names vals _ => ∀ v ∈ vals, v.length = names.length

theorem foldl_acc {names : List String} {t : AccessType} {x : String} {i : Ex} :
    ∀ (vals : List (List Ex)) (st : AccSt), (∀ v ∈ vals, v.length = names.length) →
      vals.foldlM (fun st v => if names.length = v.length then addAccess (scopeLets names v) t st (.aref x i) else none)
        st = some { st with accs := st.accs ++ vals.map fun v => (t, x, strEx (scopeLets names v) i) }
  | [], st, _ => by simp
  | v :: vals, st, h => by
    rw [List.foldlM_cons, if_pos (h v (by simp)).symm]
    rw [show addAccess (scopeLets names v) t st (.aref x i) =
      some { st with accs := st.accs ++ [(t, x, strEx (scopeLets names v) i)] } from rfl]
    simp only [Option.bind_eq_bind, Option.bind_some]
    rw [foldl_acc vals _ fun w hw => h w (by simp [hw])]
    simp

theorem addLink_last (L : List LinkM) (l : LinkM) (ids : List ℕ) (i : List Char) :
    addLink (L ++ [l]) ids i = L ++ [{ l with idxs := l.idxs ++ [i], t := l.t ++ ids }] := by
  simp [addLink]

theorem addSym_stmts {names : List String} {vals : List (List Ex)} (hv : ∀ v ∈ vals, v.length = names.length)
    (L : List LinkM) (a b : List Char) (A : List AccM) :
    ∀ (post pre : List (AccessType × String × Ex)),
    (post.map fun s => (s.1, [Ex.aref s.2.1 s.2.2])).foldlM
      (fun st p => p.2.foldlM (addSymRef names vals p.1) st)
      (⟨A ++ (pre.flatMap fun s => vals.map fun v => (s.1, s.2.1, strEx (scopeLets names v) s.2.2)),
        L ++ [⟨vals.length, a, b, pre.map fun s => exText s.2.2,
          (List.range (pre.length * vals.length)).map (A.length + ·)⟩]⟩ : AccSt) =
    some ⟨A ++ ((pre ++ post).flatMap fun s => vals.map fun v => (s.1, s.2.1, strEx (scopeLets names v) s.2.2)),
        L ++ [⟨vals.length, a, b, (pre ++ post).map fun s => exText s.2.2,
          (List.range ((pre ++ post).length * vals.length)).map (A.length + ·)⟩]⟩
  | [], pre => by simp
  | s :: post, pre => by
    rw [List.map_cons, List.foldlM_cons]
    simp only [List.foldlM_cons, List.foldlM_nil]
    have hlen : (pre.flatMap fun s => vals.map fun v => (s.1, s.2.1, strEx (scopeLets names v) s.2.2)).length =
        pre.length * vals.length := by
      induction pre with
      | nil => simp
      | cons p pre ih => simp only [List.flatMap_cons, List.length_append, ih, List.length_map, List.length_cons]; ring
    have h1 : addSymRef names vals s.1 (⟨A ++ (pre.flatMap fun s => vals.map fun v =>
          (s.1, s.2.1, strEx (scopeLets names v) s.2.2)),
        L ++ [⟨vals.length, a, b, pre.map fun s => exText s.2.2,
          (List.range (pre.length * vals.length)).map (A.length + ·)⟩]⟩ : AccSt) (.aref s.2.1 s.2.2) =
      some ⟨A ++ ((pre ++ [s]).flatMap fun s => vals.map fun v => (s.1, s.2.1, strEx (scopeLets names v) s.2.2)),
        L ++ [⟨vals.length, a, b, (pre ++ [s]).map fun s => exText s.2.2,
          (List.range ((pre ++ [s]).length * vals.length)).map (A.length + ·)⟩]⟩ := by
      unfold addSymRef
      rw [foldl_acc vals _ hv]
      simp only [refParts, Option.map_some, addLink_last, Option.some.injEq, AccSt.mk.injEq]
      refine ⟨by simp, ?_⟩
      congr 2
      simp only [LinkM.mk.injEq, true_and]
      refine ⟨by simp, ?_⟩
      rw [List.length_append, hlen, List.length_append, List.length_singleton, Nat.add_mul, Nat.one_mul,
        List.range_add, List.map_append, List.map_map]
      congr 1
      apply List.map_congr_left
      intro j _
      simp [Nat.add_assoc]
    rw [h1]
    simp only [Option.bind_eq_bind, Option.bind_some, Option.pure_def]
    have := addSym_stmts hv L a b A post (pre ++ [s])
    rw [this]
    simp

theorem add_one (A : List AccM) (L : List LinkM) : ∀ (a : NAcc), a.sized →
    addAccD ⟨A, L⟩ a.toD = some ⟨A ++ a.accs, L ++ a.links A.length⟩
  | .one t x i, _ => by
    simp [NAcc.toD, addAccD, addAccess, refParts, NAcc.accs, NAcc.links, exText]
  | .sym names vals stmts, h => by
    have := addSym_stmts (names := names) (vals := vals) h L (linkTexts names vals).1 (linkTexts names vals).2 A stmts []
    simpa [NAcc.toD, addAccD, NAcc.accs, NAcc.links] using this

theorem add_all : ∀ (l : List NAcc) (A : List AccM) (L : List LinkM), (∀ a ∈ l, a.sized) →
    (l.map NAcc.toD).foldlM addAccD ⟨A, L⟩ = some ⟨A ++ l.flatMap NAcc.accs, L ++ linksOf A.length l⟩
  | [], A, L, _ => by simp [linksOf]
  | a :: l, A, L, h => by
    rw [List.map_cons, List.foldlM_cons, add_one A L a (h a (by simp))]
    simp only [Option.bind_eq_bind, Option.bind_some]
    rw [add_all l _ _ fun b hb => h b (by simp [hb])]
    simp [linksOf]

/-! ### The text of the accesses -/

/-- The text of a statement. -/
def NAcc.text : NAcc → List Char
  | .one t x i => "\n  ".toList ++ accText t x (exText i)
  | .sym names vals stmts => "\n  ".toList ++ "symmetric".toList ++ " ".toList ++ (linkTexts names vals).1 ++
      " <- ".toList ++ "{# ".toList ++ (linkTexts names vals).2 ++ " #}".toList ++ "\n  {".toList ++
      (stmts.map fun s => "\n    ".toList ++ accText s.1 s.2.1 (exText s.2.2)).flatten ++ "\n  }".toList

theorem flat_get {γ δ : Type} (f : γ → List δ) (m : ℕ) (hm : 0 < m) :
    ∀ (l : List γ), (∀ s ∈ l, (f s).length = m) → ∀ (p : ℕ), (l.flatMap f)[p * m]? = (l[p]?).bind fun s => (f s)[0]?
  | [], _, p => by simp
  | s :: l, h, 0 => by
    rw [List.flatMap_cons, Nat.zero_mul, List.getElem?_append_left (by rw [h s (by simp)]; exact hm)]
    simp
  | s :: l, h, p + 1 => by
    rw [List.flatMap_cons, Nat.add_mul, Nat.one_mul, List.getElem?_append_right (by rw [h s (by simp)]; omega),
      h s (by simp), Nat.add_sub_cancel, flat_get f m hm l (fun t ht => h t (by simp [ht])) p]
    simp

theorem mapM_some {γ δ : Type} {f : γ → Option δ} {g : γ → δ} : ∀ {l : List γ}, (∀ x ∈ l, f x = some (g x)) →
    l.mapM f = some (l.map g)
  | [], _ => by simp
  | a :: l, h => by
    rw [List.mapM_cons, h a (by simp), mapM_some fun x hx => h x (by simp [hx])]
    simp

theorem range_get {m i a : ℕ} (h : i < m) : ((List.range m).map (a + ·))[i]? = some (a + i) := by
  rw [List.getElem?_map, List.getElem?_range h]; rfl

theorem link_text {names : List String} {vals : List (List Ex)} {stmts : List (AccessType × String × Ex)}
    (hv : vals ≠ []) (A B : List AccM) (l : LinkM)
    (hl : (NAcc.sym names vals stmts).links A.length = [l]) :
    linkText (A ++ ((NAcc.sym names vals stmts).accs ++ B)) l = some (NAcc.sym names vals stmts).text := by
  have hm : 0 < vals.length := List.length_pos_of_ne_nil hv
  simp only [NAcc.links, List.cons.injEq, and_true] at hl
  subst hl
  unfold linkText
  simp only
  have hlen : ((NAcc.sym names vals stmts).accs).length = stmts.length * vals.length := by
    simp only [NAcc.accs]
    clear hv
    induction stmts with
    | nil => simp
    | cons p pre ih => simp only [List.flatMap_cons, List.length_append, ih, List.length_map, List.length_cons]; ring
  obtain ⟨v0, vs, rfl⟩ : ∃ v0 vs, vals = v0 :: vs := by
    cases vals with
    | nil => exact absurd rfl hv
    | cons a l => exact ⟨a, l, rfl⟩
  have key : ∀ p ∈ (stmts.map fun s => exText s.2.2).zipIdx,
      (((List.range (stmts.length * (v0 :: vs).length)).map (A.length + ·))[p.2 * (v0 :: vs).length]?).bind
        (fun e => ((A ++ ((NAcc.sym names (v0 :: vs) stmts).accs ++ B))[e]?).map
          fun a => "\n    ".toList ++ accText a.1 a.2.1 p.1) =
      some ((stmts[p.2]?.map fun s => "\n    ".toList ++ accText s.1 s.2.1 (exText s.2.2)).getD []) := by
    rintro ⟨t, j⟩ hp
    have hg := List.mem_zipIdx_iff_getElem?.1 hp
    simp only [List.getElem?_map, Option.map_eq_some_iff] at hg
    obtain ⟨s, hs, rfl⟩ := hg
    have hj : j < stmts.length := (List.getElem?_eq_some_iff.1 hs).1
    have hlt : j * (v0 :: vs).length < stmts.length * (v0 :: vs).length := Nat.mul_lt_mul_of_pos_right hj hm
    simp only
    rw [range_get hlt, Option.bind_some, List.getElem?_append_right (by omega),
      show A.length + j * (v0 :: vs).length - A.length = j * (v0 :: vs).length by omega,
      List.getElem?_append_left (by rw [hlen]; exact hlt), NAcc.accs,
      flat_get _ (v0 :: vs).length hm stmts (by simp) j, hs]
    rfl
  rw [mapM_some key]
  have e1 : ((stmts.map fun s => exText s.2.2).zipIdx.map fun p =>
      (stmts[p.2]?.map fun s => "\n    ".toList ++ accText s.1 s.2.1 (exText s.2.2)).getD []) =
      stmts.map fun s => "\n    ".toList ++ accText s.1 s.2.1 (exText s.2.2) := by
    generalize (fun s : AccessType × String × Ex => "\n    ".toList ++ accText s.1 s.2.1 (exText s.2.2)) = g
    apply List.ext_getElem
    · simp
    · intro j h1 h2
      simp at h1
      simp [List.getElem?_eq_getElem h1]
  rw [e1]
  rfl

theorem links_mem : ∀ (l : List NAcc) (start : ℕ) (k : LinkM), k ∈ linksOf start l → ∀ j ∈ k.t, start ≤ j
  | [], _, _, h => by simp [linksOf] at h
  | a :: l, start, k, h => by
    rw [linksOf, List.mem_append] at h
    intro j hj
    rcases h with h | h
    · cases a with
      | one => simp [NAcc.links] at h
      | sym names vals stmts =>
        simp only [NAcc.links, List.mem_singleton] at h
        subst h
        simp only [List.mem_map] at hj
        obtain ⟨i, _, rfl⟩ := hj
        omega
    · have := links_mem l _ k h j hj
      omega

/-- There is something to write. -/
def NAcc.full : NAcc → Prop
  | .one _ _ _ => True
  | .sym _ vals stmts => vals ≠ [] ∧ stmts ≠ []

theorem accs_len (names : List String) (vals : List (List Ex)) (stmts : List (AccessType × String × Ex)) :
    ((NAcc.sym names vals stmts).accs).length = stmts.length * vals.length := by
  simp only [NAcc.accs]
  induction stmts with
  | nil => simp
  | cons p pre ih => simp only [List.flatMap_cons, List.length_append, ih, List.length_map, List.length_cons]; ring

theorem accs_text : ∀ (l : List NAcc) (A : List AccM) (L : List LinkM) (k : ℕ),
    (∀ a ∈ l, a.full) → (∀ m ∈ L, ∀ j ∈ m.t, j < A.length) → (l.flatMap NAcc.accs).length < k →
    accsText ⟨A ++ l.flatMap NAcc.accs, L ++ linksOf A.length l⟩ k A.length = some (l.flatMap NAcc.text)
  | [], A, L, k, _, _, hk => by
    obtain ⟨k, rfl⟩ : ∃ j, k = j + 1 := ⟨k - 1, by omega⟩
    simp [accsText]
  | a :: l, A, L, k, hf, hL, hk => by
    obtain ⟨k, rfl⟩ : ∃ j, k = j + 1 := ⟨k - 1, by omega⟩
    have hnotL : ∀ m ∈ L, ¬(m.t.contains A.length) = true := by
      intro m hm hc
      simp only [List.contains_iff_mem] at hc
      have := hL m hm _ hc
      omega
    cases a with
    | one t x i =>
      have hacc : (A ++ (NAcc.one t x i :: l).flatMap NAcc.accs)[A.length]? = some (t, x, exText i) := by
        rw [List.getElem?_append_right (le_refl _)]
        simp [NAcc.accs]
      have hfind : (L ++ linksOf A.length (NAcc.one t x i :: l)).find? (fun m => m.t.contains A.length) = none := by
        rw [List.find?_eq_none]
        intro m hm
        rw [List.mem_append] at hm
        rcases hm with hm | hm
        · exact hnotL m hm
        · simp only [linksOf, NAcc.links, List.nil_append] at hm
          intro hc
          simp only [List.contains_iff_mem] at hc
          have := links_mem l _ m hm _ hc
          simp [NAcc.accs] at this
      rw [accsText]
      simp only [hacc, hfind]
      have ih := accs_text l (A ++ [(t, x, exText i)]) L k (fun b hb => hf b (by simp [hb]))
        (fun m hm j hj => by have := hL m hm j hj; simp; omega)
        (by simp [NAcc.accs] at hk ⊢; omega)
      have e1 : (⟨A ++ [(t, x, exText i)] ++ l.flatMap NAcc.accs, L ++ linksOf (A ++ [(t, x, exText i)]).length l⟩ : AccSt) =
          ⟨A ++ (NAcc.one t x i :: l).flatMap NAcc.accs, L ++ linksOf A.length (NAcc.one t x i :: l)⟩ := by
        simp [NAcc.accs, linksOf, NAcc.links]
      rw [e1, List.length_append, List.length_singleton] at ih
      rw [ih, Option.map_some, List.flatMap_cons]
      rfl
    | sym names vals stmts =>
      obtain ⟨hv, hst⟩ := hf _ (List.mem_cons_self ..)
      have hpos : 0 < stmts.length * vals.length :=
        Nat.mul_pos (List.length_pos_of_ne_nil hst) (List.length_pos_of_ne_nil hv)
      have hlen := accs_len names vals stmts
      set lk : LinkM := ⟨vals.length, (linkTexts names vals).1, (linkTexts names vals).2,
        stmts.map fun s => exText s.2.2, (List.range (stmts.length * vals.length)).map (A.length + ·)⟩ with hlk
      obtain ⟨a0, ha0⟩ : ∃ a0, (A ++ (NAcc.sym names vals stmts :: l).flatMap NAcc.accs)[A.length]? = some a0 := by
        rw [List.getElem?_append_right (le_refl _), Nat.sub_self, List.flatMap_cons,
          List.getElem?_append_left (by omega)]
        exact ⟨_, List.getElem?_eq_getElem (by omega)⟩
      have hfind : (L ++ linksOf A.length (NAcc.sym names vals stmts :: l)).find? (fun m => m.t.contains A.length) =
          some lk := by
        rw [List.find?_append]
        have : L.find? (fun m => m.t.contains A.length) = none := by
          rw [List.find?_eq_none]; exact hnotL
        rw [this, Option.none_or, linksOf, NAcc.links, ← hlk]
        have hc : lk.t.contains A.length = true := by
          simp only [List.contains_iff_mem, hlk, List.mem_map, List.mem_range]
          exact ⟨0, hpos, by omega⟩
        rw [List.singleton_append, List.find?_cons, hc]
      rw [accsText]
      simp only [ha0, hfind]
      have ht := link_text (names := names) (stmts := stmts) hv A (l.flatMap NAcc.accs) lk rfl
      rw [List.flatMap_cons, ht, Option.bind_some]
      have hnext : A.length + lk.nlinks * lk.idxs.length - 1 + 1 = (A ++ (NAcc.sym names vals stmts).accs).length := by
        rw [List.length_append, hlen, hlk]
        simp only [List.length_map]
        rw [Nat.mul_comm]
        omega
      rw [hnext]
      have ih := accs_text l (A ++ (NAcc.sym names vals stmts).accs) (L ++ [lk]) k (fun b hb => hf b (by simp [hb]))
        (fun m hm j hj => by
          rw [List.length_append, hlen]
          rcases List.mem_append.1 hm with hm | hm
          · have := hL m hm j hj; omega
          · rw [List.mem_singleton] at hm
            subst hm
            simp only [hlk, List.mem_map, List.mem_range] at hj
            obtain ⟨i, hi, rfl⟩ := hj
            omega)
        (by rw [List.flatMap_cons, List.length_append, hlen] at hk; omega)
      have e1 : (⟨A ++ (NAcc.sym names vals stmts).accs ++ l.flatMap NAcc.accs,
          L ++ [lk] ++ linksOf (A ++ (NAcc.sym names vals stmts).accs).length l⟩ : AccSt) =
          ⟨A ++ ((NAcc.sym names vals stmts).accs ++ l.flatMap NAcc.accs),
            L ++ linksOf A.length (NAcc.sym names vals stmts :: l)⟩ := by
        simp [linksOf, NAcc.links, hlk]
      rw [e1] at ih
      rw [ih, Option.map_some, List.flatMap_cons]

end Verif.Proofs
