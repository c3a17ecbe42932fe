import Verif.Model.Aperiodic
import Verif.Spec.Wang
import Mathlib.Tactic.Common

/-!
The tile set of `src/uni/aperiodic.cc` tiles arbitrarily large squares: every tile is replaced by a block of tiles.
-/

namespace Verif.Proofs
open Verif.Model Verif.Spec

/-- Every tile, with the rows of the block that replaces it. -/
def blockTable : List (Wang × List Wang × List Wang) := [
  ((1, 1, 2, 2), [(6, 6, 3, 3)], []),
  ((1, 5, 4, 1), [(6, 6, 3, 3), (3, 2, 2, 6)], []),
  ((2, 3, 6, 2), [(3, 4, 4, 5), (5, 2, 1, 3)], []),
  ((2, 4, 6, 1), [(3, 3, 4, 4), (4, 2, 1, 6)], []),
  ((2, 5, 3, 1), [(3, 6, 4, 3), (3, 2, 2, 6)], []),
  ((3, 2, 2, 6), [(4, 3, 5, 4)], [(2, 5, 3, 1)]),
  ((3, 3, 4, 4), [(4, 4, 5, 5), (5, 2, 1, 3)], [(2, 5, 3, 1), (1, 1, 2, 2)]),
  ((3, 4, 4, 5), [(4, 3, 5, 4), (4, 2, 1, 6)], [(2, 5, 3, 1), (1, 1, 2, 2)]),
  ((3, 6, 4, 3), [(4, 4, 5, 5), (5, 1, 1, 4)], [(2, 5, 3, 1), (1, 1, 2, 2)]),
  ((4, 2, 1, 6), [(3, 3, 4, 4)], [(2, 4, 6, 1)]),
  ((4, 3, 5, 4), [(3, 4, 4, 5), (5, 2, 1, 3)], [(2, 4, 6, 1), (1, 1, 2, 2)]),
  ((4, 4, 5, 5), [(3, 3, 4, 4), (4, 2, 1, 6)], [(2, 4, 6, 1), (1, 1, 2, 2)]),
  ((5, 1, 1, 4), [(6, 6, 3, 3)], [(2, 3, 6, 2)]),
  ((5, 2, 1, 3), [(6, 3, 3, 4)], [(2, 3, 6, 2)]),
  ((6, 3, 3, 4), [(4, 4, 5, 5), (5, 2, 1, 3)], [(1, 5, 4, 1), (1, 1, 2, 2)]),
  ((6, 6, 3, 3), [(4, 4, 5, 5), (5, 1, 1, 4)], [(1, 5, 4, 1), (1, 1, 2, 2)])]

/-- The upper row of the block. -/
def topRow (t : Wang) : List Wang := ((blockTable.find? fun e => e.1 == t).map fun e => e.2.1).getD []

/-- The lower row of the block. -/
def botRow (t : Wang) : List Wang := ((blockTable.find? fun e => e.1 == t).map fun e => e.2.2).getD []

/-- Colours match from left to right. -/
def joined : List Wang → Bool
  | [] => true
  | [_] => true
  | t :: u :: l => t.2.2.2 == u.1 && joined (u :: l)

/-- Colours match between a row and the next. -/
def vertOk : List Wang → List Wang → Bool
  | [], [] => true
  | t :: l, u :: l' => t.2.2.1 == u.2.1 && vertOk l l'
  | _, _ => false

theorem vertOk_append {a b c d : List Wang} (h : vertOk a b = true) (h' : vertOk c d = true) :
    vertOk (a ++ c) (b ++ d) = true := by
  induction a generalizing b with
  | nil => cases b with
    | nil => exact h'
    | cons u b => simp [vertOk] at h
  | cons t a ih => cases b with
    | nil => simp [vertOk] at h
    | cons u b =>
      simp only [vertOk, Bool.and_eq_true] at h
      simp only [List.cons_append, vertOk, Bool.and_eq_true]
      exact ⟨h.1, ih h.2⟩

theorem vertOk_length {a b : List Wang} (h : vertOk a b = true) : a.length = b.length := by
  induction a generalizing b with
  | nil => cases b with
    | nil => rfl
    | cons u b => simp [vertOk] at h
  | cons t a ih => cases b with
    | nil => simp [vertOk] at h
    | cons u b =>
      simp only [vertOk, Bool.and_eq_true] at h
      simp [ih h.2]

theorem vertOk_get {a b : List Wang} (h : vertOk a b = true) (x : Wang) {c : ℕ} (hc : c < a.length) :
    (a.getD c x).2.2.1 = (b.getD c x).2.1 := by
  induction a generalizing b c with
  | nil => simp at hc
  | cons t a ih => cases b with
    | nil => simp [vertOk] at h
    | cons u b =>
      simp only [vertOk, Bool.and_eq_true, beq_iff_eq] at h
      cases c with
      | zero => exact h.1
      | succ c =>
        simp only [List.getD_cons_succ]
        exact ih h.2 (by simpa using hc)

theorem joined_get {a : List Wang} (h : joined a = true) (x : Wang) {c : ℕ} (hc : c + 1 < a.length) :
    (a.getD c x).2.2.2 = (a.getD (c + 1) x).1 := by
  induction a generalizing c with
  | nil => simp at hc
  | cons t a ih => cases a with
    | nil => simp at hc
    | cons u b =>
      simp only [joined, Bool.and_eq_true, beq_iff_eq] at h
      cases c with
      | zero => exact h.1
      | succ c =>
        simp only [List.getD_cons_succ]
        exact ih h.2 (by simpa using hc)

theorem joined_append {a b : List Wang} (ha : joined a = true) (hb : joined b = true)
    (h : ∀ t u, a.getLast? = some t → b.head? = some u → t.2.2.2 = u.1) : joined (a ++ b) = true := by
  induction a with
  | nil => exact hb
  | cons t a ih => cases a with
    | nil => cases b with
      | nil => rfl
      | cons u b =>
        simp only [List.cons_append, List.nil_append, joined, Bool.and_eq_true, beq_iff_eq]
        exact ⟨h t u rfl rfl, hb⟩
    | cons s a =>
      simp only [List.cons_append, joined, Bool.and_eq_true] at ha ⊢
      refine ⟨ha.1, ih ha.2 fun p q hp hq => h p q ?_ hq⟩
      rw [List.getLast?_cons_cons]; exact hp

/-! ### The blocks -/

private theorem top_ok : ∀ t ∈ tileSet, topRow t ≠ [] ∧ joined (topRow t) = true ∧ (∀ u ∈ topRow t, u ∈ tileSet ∧ 3 ≤ u.1) ∧
    (3 ≤ t.2.1 → 2 ≤ (topRow t).length) ∧ ∃ u ∈ topRow t, 3 ≤ u.2.1 := by decide +kernel

private theorem bot_ok : ∀ t ∈ tileSet, 3 ≤ t.1 → botRow t ≠ [] ∧ joined (botRow t) = true ∧
    (∀ u ∈ botRow t, u ∈ tileSet ∧ u.1 ≤ 2) ∧ vertOk (topRow t) (botRow t) = true := by decide +kernel

private theorem narrow_ok : ∀ t ∈ tileSet, (t.1 ≤ 2 ↔ t.2.2.2 ≤ 2) := by decide

private theorem horz_ok : ∀ t ∈ tileSet, ∀ u ∈ tileSet, t.2.2.2 = u.1 →
    ((topRow t).getLast?.map fun x => x.2.2.2) = ((topRow u).head?.map fun x => x.1) ∧
    (3 ≤ t.1 → ((botRow t).getLast?.map fun x => x.2.2.2) = ((botRow u).head?.map fun x => x.1)) := by decide +kernel

private theorem vert_ok : ∀ t ∈ tileSet, ∀ u ∈ tileSet, t.2.2.1 = u.2.1 →
    (t.1 ≤ 2 → vertOk (topRow t) (topRow u) = true) ∧ (3 ≤ t.1 → vertOk (botRow t) (topRow u) = true) := by
  decide +kernel

/-! ### Rows -/

/-- A row of tiles: all narrow or all wide. -/
structure GoodRow (wide : Bool) (row : List Wang) : Prop where
  ne : row ≠ []
  mem : ∀ t ∈ row, t ∈ tileSet
  kind : ∀ t ∈ row, (3 ≤ t.1 ↔ wide = true)
  join : joined row = true

private theorem head_flatMap {f : Wang → List Wang} {t : Wang} {l : List Wang} (h : f t ≠ []) :
    ((t :: l).flatMap f).head? = (f t).head? := by
  rw [List.flatMap_cons]
  cases hf : f t with
  | nil => exact absurd hf h
  | cons a b => rfl

private theorem flatMap_joined {f : Wang → List Wang} {row : List Wang} (hne : ∀ t ∈ row, f t ≠ [])
    (hj : ∀ t ∈ row, joined (f t) = true)
    (hh : ∀ t ∈ row, ∀ u ∈ row, t.2.2.2 = u.1 → ((f t).getLast?.map fun x => x.2.2.2) = ((f u).head?.map fun x => x.1))
    (h : joined row = true) : joined (row.flatMap f) = true := by
  induction row with
  | nil => rfl
  | cons t row ih =>
    rw [List.flatMap_cons]
    have h2 : joined row = true := by
      cases row with
      | nil => rfl
      | cons u l => simp only [joined, Bool.and_eq_true] at h; exact h.2
    refine joined_append (hj t (by simp)) (ih (fun s hs => hne s (by simp [hs])) (fun s hs => hj s (by simp [hs]))
      (fun s hs u hu => hh s (by simp [hs]) u (by simp [hu])) h2) fun x y hx hy => ?_
    cases row with
    | nil => simp at hy
    | cons u l =>
      rw [head_flatMap (hne u (by simp))] at hy
      simp only [joined, Bool.and_eq_true, beq_iff_eq] at h
      have := hh t (by simp) u (by simp) h.1
      rw [hx, hy] at this
      simpa using this

theorem top_row {wide : Bool} {row : List Wang} (h : GoodRow wide row) : GoodRow true (row.flatMap topRow) := by
  refine ⟨?_, ?_, ?_, ?_⟩
  · obtain ⟨t, l, rfl⟩ := List.exists_cons_of_ne_nil h.ne
    rw [List.flatMap_cons]
    exact fun hc => (top_ok t (h.mem t (by simp))).1 (List.append_eq_nil_iff.1 hc).1
  · intro u hu
    obtain ⟨t, ht, hu⟩ := List.mem_flatMap.1 hu
    exact ((top_ok t (h.mem t ht)).2.2.1 u hu).1
  · intro u hu
    obtain ⟨t, ht, hu⟩ := List.mem_flatMap.1 hu
    simp [((top_ok t (h.mem t ht)).2.2.1 u hu).2]
  · exact flatMap_joined (fun t ht => (top_ok t (h.mem t ht)).1) (fun t ht => (top_ok t (h.mem t ht)).2.1)
      (fun t ht u hu e => (horz_ok t (h.mem t ht) u (h.mem u hu) e).1) h.join

theorem bot_row {row : List Wang} (h : GoodRow true row) : GoodRow false (row.flatMap botRow) := by
  have hw : ∀ t ∈ row, 3 ≤ t.1 := fun t ht => (h.kind t ht).2 rfl
  refine ⟨?_, ?_, ?_, ?_⟩
  · obtain ⟨t, l, rfl⟩ := List.exists_cons_of_ne_nil h.ne
    rw [List.flatMap_cons]
    exact fun hc => (bot_ok t (h.mem t (by simp)) (hw t (by simp))).1 (List.append_eq_nil_iff.1 hc).1
  · intro u hu
    obtain ⟨t, ht, hu⟩ := List.mem_flatMap.1 hu
    exact ((bot_ok t (h.mem t ht) (hw t ht)).2.2.1 u hu).1
  · intro u hu
    obtain ⟨t, ht, hu⟩ := List.mem_flatMap.1 hu
    have := ((bot_ok t (h.mem t ht) (hw t ht)).2.2.1 u hu).2
    simp only [Bool.false_eq_true, iff_false]
    omega
  · exact flatMap_joined (fun t ht => (bot_ok t (h.mem t ht) (hw t ht)).1) (fun t ht => (bot_ok t (h.mem t ht) (hw t ht)).2.1)
      (fun t ht u hu e => (horz_ok t (h.mem t ht) u (h.mem u hu) e).2 (hw t ht)) h.join

private theorem flatMap_vert {f g : Wang → List Wang} {r s : List Wang} (h : vertOk r s = true)
    (hf : ∀ t ∈ r, ∀ u ∈ s, t.2.2.1 = u.2.1 → vertOk (f t) (g u) = true) : vertOk (r.flatMap f) (s.flatMap g) = true := by
  induction r generalizing s with
  | nil => cases s with
    | nil => rfl
    | cons u s => simp [vertOk] at h
  | cons t r ih => cases s with
    | nil => simp [vertOk] at h
    | cons u s =>
      simp only [vertOk, Bool.and_eq_true, beq_iff_eq] at h
      rw [List.flatMap_cons, List.flatMap_cons]
      exact vertOk_append (hf t (by simp) u (by simp) h.1) (ih h.2 fun a ha b hb => hf a (by simp [ha]) b (by simp [hb]))

theorem top_bot {row : List Wang} (h : GoodRow true row) : vertOk (row.flatMap topRow) (row.flatMap botRow) = true := by
  have hw : ∀ t ∈ row, 3 ≤ t.1 := fun t ht => (h.kind t ht).2 rfl
  have hm := h.mem
  clear h
  induction row with
  | nil => rfl
  | cons t l ih =>
    rw [List.flatMap_cons, List.flatMap_cons]
    exact vertOk_append (bot_ok t (hm t (by simp)) (hw t (by simp))).2.2.2
      (ih (fun s hs => hw s (by simp [hs])) fun s hs => hm s (by simp [hs]))

/-! ### Patches -/

/-- Colours match between consecutive rows, which are tagged with their kind. -/
def stacked : List (Bool × List Wang) → Prop
  | [] => True
  | [_] => True
  | r :: s :: P => vertOk r.2 s.2 = true ∧ stacked (s :: P)

/-- The rows that replace a row. -/
def expandRow (r : Bool × List Wang) : List (Bool × List Wang) :=
  (true, r.2.flatMap topRow) :: if r.1 then [(false, r.2.flatMap botRow)] else []

/-- All tiles are replaced. -/
def expandRows (P : List (Bool × List Wang)) : List (Bool × List Wang) := P.flatMap expandRow

theorem expand_good {P : List (Bool × List Wang)} (h : ∀ r ∈ P, GoodRow r.1 r.2) : ∀ r ∈ expandRows P, GoodRow r.1 r.2 := by
  intro r hr
  obtain ⟨⟨wide, row⟩, hs, hr⟩ := List.mem_flatMap.1 hr
  have hg := h _ hs
  unfold expandRow at hr
  rcases List.mem_cons.1 hr with rfl | hr
  · exact top_row hg
  · cases wide with
    | false => simp at hr
    | true =>
      simp only [if_true, List.mem_singleton] at hr
      subst hr
      exact bot_row hg

theorem expand_stacked {P : List (Bool × List Wang)} (h : ∀ r ∈ P, GoodRow r.1 r.2) (hs : stacked P) :
    stacked (expandRows P) := by
  induction P with
  | nil => exact hs
  | cons r P ih =>
    have hr := h r (by simp)
    have hP : ∀ s ∈ P, GoodRow s.1 s.2 := fun s hs => h s (by simp [hs])
    obtain ⟨wide, row⟩ := r
    have hlast : ∀ (X : List Wang) (b : Bool), (∀ s ∈ P.head?, vertOk X (s.2.flatMap topRow) = true) → stacked P →
        stacked ((b, X) :: expandRows P) := by
      intro X b hX hst
      cases P with
      | nil => trivial
      | cons s P =>
        have := ih hP hst
        exact ⟨hX s rfl, this⟩
    have hst : stacked P := by
      cases P with
      | nil => trivial
      | cons s P => exact hs.2
    have hv : ∀ s ∈ P.head?, vertOk row s.2 = true ∧ GoodRow s.1 s.2 := by
      intro s hs'
      cases P with
      | nil => simp at hs'
      | cons s' P =>
        simp only [List.head?_cons, Option.mem_def, Option.some.injEq] at hs'
        subst hs'
        exact ⟨hs.1, hP _ (by simp)⟩
    show stacked (expandRow (wide, row) ++ expandRows P)
    cases wide with
    | false =>
      refine hlast _ true (fun s hs' => ?_) hst
      obtain ⟨v1, v2⟩ := hv s hs'
      refine flatMap_vert v1 fun t ht u hu e => (vert_ok t (hr.mem t ht) u (v2.mem u hu) e).1 ?_
      have := hr.kind t ht
      simp only [Bool.false_eq_true, iff_false] at this
      omega
    | true =>
      refine ⟨top_bot hr, hlast _ false (fun s hs' => ?_) hst⟩
      obtain ⟨v1, v2⟩ := hv s hs'
      exact flatMap_vert v1 fun t ht u hu e => (vert_ok t (hr.mem t ht) u (v2.mem u hu) e).2 ((hr.kind t ht).2 rfl)

private theorem length_flatMap_ge {α β : Type} {f : α → List β} {l : List α} (h : ∀ t ∈ l, f t ≠ []) :
    l.length ≤ (l.flatMap f).length := by
  induction l with
  | nil => simp
  | cons t l ih =>
    have h1 := List.length_pos_of_ne_nil (h t (by simp))
    have h2 := ih fun s hs => h s (by simp [hs])
    rw [List.flatMap_cons, List.length_append, List.length_cons]
    omega

private theorem length_flatMap_gt {α β : Type} {f : α → List β} {l : List α} (h : ∀ t ∈ l, f t ≠ []) {t : α} (ht : t ∈ l)
    (h2 : 2 ≤ (f t).length) : l.length + 1 ≤ (l.flatMap f).length := by
  induction l with
  | nil => simp at ht
  | cons s l ih =>
    have h1 := List.length_pos_of_ne_nil (h s (by simp))
    have hl : ∀ s ∈ l, f s ≠ [] := fun s hs => h s (by simp [hs])
    rw [List.flatMap_cons, List.length_append, List.length_cons]
    rcases List.mem_cons.1 ht with rfl | ht
    · have := length_flatMap_ge hl
      omega
    · have := ih hl ht
      omega

/-- A patch that grows when tiles are replaced. -/
structure Growing (k : ℕ) (row : List Wang) (P : List (Bool × List Wang)) : Prop where
  good : ∀ r ∈ (true, row) :: P, GoodRow r.1 r.2
  stack : stacked ((true, row) :: P)
  rows : k ≤ P.length
  cols : k + 1 ≤ row.length
  wide : ∃ t ∈ row, 3 ≤ t.2.1

theorem growing (k : ℕ) : ∃ row P, Growing k row P := by
  induction k with
  | zero =>
    refine ⟨[(3, 3, 4, 4)], [], ?_, trivial, by simp, by simp, by simp⟩
    simp only [List.mem_singleton, forall_eq]
    exact ⟨by simp, by decide, by decide, rfl⟩
  | succ k ih =>
    obtain ⟨row, P, h⟩ := ih
    have hg : GoodRow true row := h.good _ (List.mem_cons_self ..)
    have e : expandRows ((true, row) :: P) =
      (true, row.flatMap topRow) :: (false, row.flatMap botRow) :: expandRows P := rfl
    refine ⟨row.flatMap topRow, (false, row.flatMap botRow) :: expandRows P, ?_, ?_, ?_, ?_, ?_⟩
    · exact e ▸ expand_good h.good
    · exact e ▸ expand_stacked h.good h.stack
    · have h1 : P.length ≤ (expandRows P).length := length_flatMap_ge fun r _ => by simp [expandRow]
      have := h.rows
      rw [List.length_cons]
      omega
    · obtain ⟨t, ht, hN⟩ := h.wide
      have := length_flatMap_gt (f := topRow) (fun s hs => (top_ok s (hg.mem s hs)).1) ht
        ((top_ok t (hg.mem t ht)).2.2.2.1 hN)
      have := h.cols
      omega
    · obtain ⟨t, ht, hN⟩ := h.wide
      obtain ⟨u, hu, hu'⟩ := (top_ok t (hg.mem t ht)).2.2.2.2
      exact ⟨u, List.mem_flatMap.2 ⟨t, ht, hu⟩, hu'⟩

theorem stacked_get {P : List (Bool × List Wang)} (h : stacked P) (x : Bool × List Wang) {r : ℕ} (hr : r + 1 < P.length) :
    vertOk (P.getD r x).2 (P.getD (r + 1) x).2 = true := by
  induction P generalizing r with
  | nil => simp at hr
  | cons a P ih => cases P with
    | nil => simp at hr
    | cons b P =>
      cases r with
      | zero => exact h.1
      | succ r =>
        simp only [List.getD_cons_succ]
        exact ih h.2 (by simpa using hr)

private theorem getD_mem {α : Type} {l : List α} {i : ℕ} {x : α} (h : i < l.length) : l.getD i x ∈ l := by
  rw [List.getD_eq_getElem?_getD, List.getElem?_eq_getElem h]
  exact List.getElem_mem _

/-- The tile set tiles squares of every size. -/
theorem tileSet_patch (n : ℕ) : ∃ F, WangPatch tileSet n n F := by
  obtain ⟨row, P, h⟩ := growing n
  have hrows := h.rows
  have hcols := h.cols
  let Q := (true, row) :: P
  have hQ : Q.length = P.length + 1 := rfl
  have hmem : ∀ r < n, Q.getD r (true, []) ∈ Q := fun r hr => getD_mem (by omega)
  have hlen : ∀ r < n, (Q.getD r (true, [])).2.length = row.length := by
    intro r
    induction r with
    | zero => intro _; rfl
    | succ r ih =>
      intro hr
      rw [← ih (by omega)]
      exact (vertOk_length (stacked_get h.stack _ (by rw [hQ]; omega))).symm
  refine ⟨fun r c => (Q.getD r (true, [])).2.getD c (0, 0, 0, 0), fun r hr c hc => ?_, fun r hr c hc => ?_,
    fun r hr c hc => ?_⟩
  · refine (h.good _ (hmem r hr)).mem _ ?_
    have := hlen r hr
    exact getD_mem (by omega)
  · have := hlen r hr
    exact joined_get (h.good _ (hmem r hr)).join _ (by omega)
  · have := hlen r (by omega)
    have hv : vertOk (Q.getD r (true, [])).2 (Q.getD (r + 1) (true, [])).2 = true :=
      stacked_get h.stack _ (by rw [hQ]; omega)
    exact vertOk_get hv _ (by omega)

end Verif.Proofs
