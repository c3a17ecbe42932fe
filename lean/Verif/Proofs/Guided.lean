import Verif.Proofs.TileCont

/-! The search for a livelock that starts with a given row of tiles, `guided_livelock_ck`. -/

set_option linter.unusedSectionVars false

namespace Verif.Proofs
open Verif.Model Verif.Spec Verif.Props

/-- `mid` is the row below `top`, both closed to a circle. -/
def GRowStep (P : List ℕ) (d : ℕ) (top mid : List ℕ) : Prop :=
  mid.length = top.length ∧ ∃ west, mid.getLast? = some west ∧ ∀ j < top.length,
    PpgStep P d ((west :: mid).getD j 0) (top.getD j 0) (mid.getD j 0)

/-- The identifier is that of a tile between the rows. -/
def RowTile (d west : ℕ) (top mid : List ℕ) (i : ℕ) : Prop :=
  ∃ j < top.length, i = id3 d ((west :: mid).getD j 0) (top.getD j 0) (mid.getD j 0)

theorem guideRow_cons {P : List ℕ} {d w b : ℕ} {l : List ℕ} :
    guideRow P d w (b :: l) = (ppgAt P d w b).bind fun c =>
      if d ≤ c then some none else (guideRow P d c l).map fun r => r.map (c :: ·) := rfl

theorem guideRow_spec {P : List ℕ} {d : ℕ} (hP : PpgTable P d) (top : List ℕ) (ht : ∀ b ∈ top, b < d) (west : ℕ)
    (hw : west < d) :
    (∃ r, guideRow P d west top = some r) ∧ ∀ mid, guideRow P d west top = some (some mid) ↔
      mid.length = top.length ∧ ∀ j < top.length,
        PpgStep P d ((west :: mid).getD j 0) (top.getD j 0) (mid.getD j 0) := by
  induction top generalizing west with
  | nil =>
    refine ⟨⟨_, rfl⟩, fun mid => ?_⟩
    simp only [guideRow, Option.some.injEq, List.length_nil, Nat.not_lt_zero, false_implies, implies_true, and_true,
      List.length_eq_zero_iff]
    exact eq_comm
  | cons b top ih =>
    obtain ⟨c, hc, hcd⟩ := ppgAt_total hP.1 hP.2 hw (ht b (by simp))
    rw [guideRow_cons, hc, Option.bind_some]
    have hstep : ∀ c', PpgStep P d west b c' ↔ c' < d ∧ c' = c := by
      intro c'
      have h := ppgAt_some.1 hc
      unfold PpgStep
      rw [h.2.2, Option.some.injEq]
      constructor
      · rintro ⟨-, -, h, rfl⟩; exact ⟨h, rfl⟩
      · rintro ⟨h', rfl⟩; exact ⟨h.1, h.2.1, h', rfl⟩
    have hlen0 : ∀ (mid : List ℕ), mid.length = (b :: top).length →
        (∀ j < (b :: top).length, PpgStep P d ((west :: mid).getD j 0) ((b :: top).getD j 0) (mid.getD j 0)) →
        ∃ l, mid = c :: l ∧ c < d ∧ l.length = top.length ∧
          ∀ j < top.length, PpgStep P d ((c :: l).getD j 0) (top.getD j 0) (l.getD j 0) := by
      intro mid hl h
      cases mid with
      | nil => simp at hl
      | cons x l =>
        have h0 := h 0 (by simp)
        simp only [List.getD_cons_zero] at h0
        obtain ⟨hx, rfl⟩ := (hstep x).1 h0
        refine ⟨l, rfl, hx, by simpa using hl, fun j hj => ?_⟩
        have := h (j + 1) (by simp; omega)
        simpa only [List.getD_cons_succ] using this
    by_cases hdc : d ≤ c
    · rw [if_pos hdc]
      refine ⟨⟨_, rfl⟩, fun mid => ?_⟩
      constructor
      · intro h; cases h
      · rintro ⟨h1, h2⟩
        obtain ⟨l, -, hlt, -⟩ := hlen0 mid h1 h2
        omega
    · rw [if_neg hdc]
      obtain ⟨⟨r, hr⟩, i2⟩ := ih (fun x hx => ht x (by simp [hx])) c (by omega)
      refine ⟨⟨_, by rw [hr]; rfl⟩, fun mid => ?_⟩
      constructor
      · intro h
        rw [Option.map_eq_some_iff] at h
        obtain ⟨r', hr', h⟩ := h
        rw [Option.map_eq_some_iff] at h
        obtain ⟨l, rfl, rfl⟩ := h
        obtain ⟨h1, h2⟩ := (i2 l).1 hr'
        refine ⟨by simp [h1], fun j hj => ?_⟩
        rcases j with _ | j
        · simp only [List.getD_cons_zero]
          exact (hstep c).2 ⟨by omega, rfl⟩
        · simp only [List.getD_cons_succ]
          exact h2 j (by simpa using hj)
      · rintro ⟨h1, h2⟩
        obtain ⟨l, rfl, -, h3, h4⟩ := hlen0 mid h1 h2
        rw [(i2 l).2 ⟨h3, h4⟩]
        rfl

theorem mem_markRow {d : ℕ} (top mid : List ℕ) (h : mid.length = top.length) (west : ℕ) (ls : Finset ℕ) (i : ℕ) :
    i ∈ markRow d west top mid ls ↔ i ∈ ls ∨ RowTile d west top mid i := by
  induction top generalizing west mid ls with
  | nil => simp [markRow, RowTile]
  | cons b top ih =>
    cases mid with
    | nil => simp at h
    | cons c mid =>
      rw [markRow, ih mid (by simpa using h), Finset.mem_insert]
      unfold RowTile
      constructor
      · rintro ((rfl | h) | ⟨j, hj, rfl⟩)
        · exact .inr ⟨0, by simp, by simp⟩
        · exact .inl h
        · exact .inr ⟨j + 1, by simp; omega, by simp only [List.getD_cons_succ]⟩
      · rintro (h | ⟨j, hj, rfl⟩)
        · exact .inl (.inr h)
        · rcases j with _ | j
          · simp
          · exact .inr ⟨j, by simpa using hj, by simp only [List.getD_cons_succ]⟩

/-- A list of rows that follow each other, from `top` down to `goal`. -/
def GRows (P : List ℕ) (d : ℕ) (goal top : List ℕ) (l : List (List ℕ)) : Prop :=
  l.getLast? = some goal ∧
    ∀ (i : ℕ) (x y : List ℕ), (top :: l)[i]? = some x → (top :: l)[i + 1]? = some y → GRowStep P d x y

theorem GRows.cons {P : List ℕ} {d : ℕ} {goal top mid : List ℕ} {l : List (List ℕ)} (h : GRowStep P d top mid)
    (hl : GRows P d goal mid l) : GRows P d goal top (mid :: l) := by
  obtain ⟨h1, h2⟩ := hl
  refine ⟨?_, fun i x y hx hy => ?_⟩
  · rw [List.getLast?_cons, h1]; rfl
  · rcases i with _ | i
    · simp only [List.getElem?_cons_zero, Option.some.injEq, Nat.zero_add, List.getElem?_cons_succ] at hx hy
      subst hx hy; exact h
    · exact h2 i x y (by simpa using hx) (by simpa using hy)

theorem GRows.single {P : List ℕ} {d : ℕ} {goal top : List ℕ} (h : GRowStep P d top goal) :
    GRows P d goal top [goal] := by
  refine ⟨rfl, fun i x y hx hy => ?_⟩
  rcases i with _ | i
  · simp only [List.getElem?_cons_zero, Option.some.injEq, Nat.zero_add, List.getElem?_cons_succ] at hx hy
    subst hx hy; exact h
  · simp at hy

theorem GRows.head {P : List ℕ} {d : ℕ} {goal top mid : List ℕ} {l : List (List ℕ)}
    (h : GRows P d goal top (mid :: l)) : GRowStep P d top mid := h.2 0 _ _ rfl rfl

theorem GRows.tail {P : List ℕ} {d : ℕ} {goal top mid : List ℕ} {l : List (List ℕ)}
    (h : GRows P d goal top (mid :: l)) (hm : mid ≠ goal) : l ≠ [] ∧ GRows P d goal mid l := by
  have h0 : l ≠ [] := by
    rintro rfl
    have := h.1
    simp at this
    exact hm this
  refine ⟨h0, ?_, fun i x y hx hy => h.2 (i + 1) x y (by simpa using hx) (by simpa using hy)⟩
  have := h.1
  rw [List.getLast?_cons] at this
  cases hl : l.getLast? with
  | none => rw [List.getLast?_eq_none_iff] at hl; exact absurd hl h0
  | some z => rw [hl] at this; exact this

/-- The tiles of all rows but the last. -/
def Marked (d : ℕ) (top : List ℕ) (l : List (List ℕ)) (i : ℕ) : Prop :=
  ∃ (k : ℕ) (x y z : List ℕ) (w : ℕ), (top :: l)[k]? = some x ∧ (top :: l)[k + 1]? = some y ∧
    (top :: l)[k + 2]? = some z ∧ y.getLast? = some w ∧ RowTile d w x y i

theorem marked_cons {d w i : ℕ} {top mid : List ℕ} {l : List (List ℕ)} (hl : l ≠ []) (hw : mid.getLast? = some w) :
    Marked d top (mid :: l) i ↔ RowTile d w top mid i ∨ Marked d mid l i := by
  constructor
  · rintro ⟨k, x, y, z, w', h1, h2, h3, h4, h5⟩
    rcases k with _ | k
    · simp only [List.getElem?_cons_zero, Option.some.injEq, Nat.zero_add, List.getElem?_cons_succ] at h1 h2
      subst h1 h2
      rw [hw, Option.some.injEq] at h4
      subst h4
      exact .inl h5
    · exact .inr ⟨k, x, y, z, w', by simpa using h1, by simpa using h2, by simpa using h3, h4, h5⟩
  · rintro (h | ⟨k, x, y, z, w', h1, h2, h3, h4, h5⟩)
    · obtain ⟨z, l', rfl⟩ := List.exists_cons_of_ne_nil hl
      exact ⟨0, top, mid, z, w, rfl, rfl, rfl, hw, h⟩
    · exact ⟨k + 1, x, y, z, w', by simpa using h1, by simpa using h2, by simpa using h3, h4, h5⟩

/-- Rows from `top` down to `goal` in at most `k` steps whose first row ends with `west`. -/
def Leads (P : List ℕ) (d : ℕ) (goal : List ℕ) (k : ℕ) (top : List ℕ) (west : ℕ) (l : List (List ℕ)) : Prop :=
  GRows P d goal top l ∧ l.length ≤ k ∧ ∃ mid, l.head? = some mid ∧ mid.getLast? = some west

/-- The result of the recursive search is right. -/
def GRes (P : List ℕ) (d : ℕ) (goal : List ℕ) (k : ℕ) (top : List ℕ) (west : ℕ) (ls : Finset ℕ)
    (r : Option (Trit3 × Finset ℕ)) : Prop :=
  ∃ t ls', r = some (t, ls') ∧ (t = .yes ↔ ∃ l, Leads P d goal k top west l) ∧ (t ≠ .yes → ls' = ls) ∧
    (t = .yes → ∃ l, Leads P d goal k top west l ∧ ∀ i, i ∈ ls' ↔ i ∈ ls ∨ Marked d top l i)

theorem guideLoop_spec {P : List ℕ} {d : ℕ} {goal : List ℕ} {k : ℕ} {mid : List ℕ}
    {f : ℕ → Finset ℕ → Option (Trit3 × Finset ℕ)} {mark : Finset ℕ → Finset ℕ} (W : List ℕ)
    (hf : ∀ w ∈ W, ∀ ls, GRes P d goal k mid w ls (f w ls)) (b : Bool) (ls : Finset ℕ) :
    ∃ t ls', guideLoop f mark W b ls = some (t, ls') ∧ (t = .yes ↔ ∃ w ∈ W, ∃ l, Leads P d goal k mid w l) ∧
      (t ≠ .yes → ls' = ls) ∧
      (t = .yes → ∃ w ∈ W, ∃ l ls0, Leads P d goal k mid w l ∧ ls' = mark ls0 ∧
        ∀ i, i ∈ ls0 ↔ i ∈ ls ∨ Marked d mid l i) := by
  induction W generalizing b with
  | nil =>
    refine ⟨_, _, rfl, ?_, fun _ => rfl, ?_⟩
    · cases b <;> simp
    · cases b <;> simp
  | cons w W ih =>
    obtain ⟨t, ls1, h1, h2, h3, h4⟩ := hf w (by simp) ls
    have hW := ih fun w hw => hf w (by simp [hw])
    rw [guideLoop, h1, Option.bind_some]
    have aux : t ≠ .yes → ∀ b, ∃ t ls', guideLoop f mark W b ls1 = some (t, ls') ∧
        (t = .yes ↔ ∃ w' ∈ w :: W, ∃ l, Leads P d goal k mid w' l) ∧ (t ≠ .yes → ls' = ls) ∧
        (t = .yes → ∃ w' ∈ w :: W, ∃ l ls0, Leads P d goal k mid w' l ∧ ls' = mark ls0 ∧
          ∀ i, i ∈ ls0 ↔ i ∈ ls ∨ Marked d mid l i) := by
      intro ht b
      rw [h3 ht]
      obtain ⟨t', ls', g1, g2, g3, g4⟩ := hW b
      refine ⟨t', ls', g1, g2.trans ⟨?_, ?_⟩, g3, fun h => ?_⟩
      · rintro ⟨w', hw, h⟩; exact ⟨w', by simp [hw], h⟩
      · rintro ⟨w', hw, h⟩
        rcases List.mem_cons.1 hw with rfl | hw
        · exact absurd (h2.2 h) ht
        · exact ⟨w', hw, h⟩
      · obtain ⟨w', hw, h⟩ := g4 h
        exact ⟨w', by simp [hw], h⟩
    cases t with
    | yes =>
      obtain ⟨l, hl, hm⟩ := h4 rfl
      refine ⟨.yes, _, rfl, ⟨fun _ => ⟨w, by simp, l, hl⟩, fun _ => rfl⟩, fun h => absurd rfl h, fun _ => ?_⟩
      exact ⟨w, by simp, l, ls1, hl, rfl, hm⟩
    | nil => exact aux (by simp) _
    | may => exact aux (by simp) _

theorem rowStep_lt {P : List ℕ} {d : ℕ} {top mid : List ℕ} (h : GRowStep P d top mid) : ∀ x ∈ mid, x < d := by
  intro x hx
  obtain ⟨h1, w, -, h2⟩ := h
  obtain ⟨j, hj, rfl⟩ := List.mem_iff_getElem.1 hx
  have := (h2 j (by omega)).2.2.1
  rwa [List.getD_eq_getElem?_getD, List.getElem?_eq_getElem hj] at this

theorem guidedRec_eq {P : List ℕ} {d : ℕ} {goal : List ℕ} (limit : ℕ) (top : List ℕ) (west : ℕ) (ls : Finset ℕ) :
    guidedRec P d goal limit top west ls =
      if top = [] then none
      else (guideRow P d west top).bind fun r =>
        match r with
        | none => some (.nil, ls)
        | some mid =>
          if mid.getLast? ≠ some west then some (.may, ls)
          else if mid = goal then some (.yes, ls)
          else
            match limit with
            | 0 => some (.may, ls)
            | limit + 1 => guideLoop (guidedRec P d goal limit mid) (markRow d west top mid) (List.range d) true ls := by
  cases limit <;> rfl

theorem guidedRec_spec {P : List ℕ} {d : ℕ} (hP : PpgTable P d) {goal : List ℕ} :
    ∀ (limit : ℕ) (top : List ℕ) (west : ℕ) (ls : Finset ℕ), top ≠ [] → (∀ b ∈ top, b < d) → west < d →
      GRes P d goal (limit + 1) top west ls (guidedRec P d goal limit top west ls) := by
  intro limit
  induction limit with
  | zero =>
    intro top west ls h0 ht hw
    obtain ⟨⟨r, hr⟩, hs⟩ := guideRow_spec hP top ht west hw
    rw [guidedRec_eq, if_neg h0, hr, Option.bind_some]
    have key : ∀ l, Leads P d goal (0 + 1) top west l →
        ∃ mid, l = [mid] ∧ mid = goal ∧ r = some mid ∧ mid.getLast? = some west := by
      rintro l ⟨h1, h2, mid, h3, h4⟩
      cases l with
      | nil => simp at h3
      | cons m l =>
        simp only [List.head?_cons, Option.some.injEq] at h3
        subst h3
        have : l = [] := by simpa using h2
        subst this
        refine ⟨m, rfl, by simpa using h1.1, ?_, h4⟩
        obtain ⟨g1, w', g2, g3⟩ := h1.head
        rw [h4, Option.some.injEq] at g2
        subst g2
        have := (hs m).2 ⟨g1, g3⟩
        rw [hr, Option.some.injEq] at this
        exact this
    cases r with
    | none =>
      refine ⟨.nil, ls, rfl, ⟨by simp, fun ⟨l, hl⟩ => ?_⟩, fun _ => rfl, by simp⟩
      obtain ⟨mid, -, -, h, -⟩ := key l hl
      cases h
    | some mid =>
      simp only
      obtain ⟨g1, g2⟩ := (hs mid).1 hr
      by_cases hl : mid.getLast? ≠ some west
      · rw [if_pos hl]
        refine ⟨.may, ls, rfl, ⟨by simp, fun ⟨l, hl'⟩ => ?_⟩, fun _ => rfl, by simp⟩
        obtain ⟨m, -, -, h, h'⟩ := key l hl'
        simp only [Option.some.injEq] at h
        subst h
        exact absurd h' hl
      · rw [if_neg hl]
        push Not at hl
        by_cases hg : mid = goal
        · rw [if_pos hg]
          have hL : Leads P d goal (0 + 1) top west [mid] :=
            ⟨by rw [← hg]; exact GRows.single ⟨g1, west, hl, g2⟩, by simp, mid, rfl, hl⟩
          refine ⟨.yes, ls, rfl, ⟨fun _ => ⟨_, hL⟩, fun _ => rfl⟩, fun h => absurd rfl h, fun _ => ⟨_, hL, fun i => ?_⟩⟩
          constructor
          · exact .inl
          · rintro (h | ⟨k, x, y, z, w, -, -, h, -⟩)
            · exact h
            · simp at h
        · rw [if_neg hg]
          refine ⟨.may, ls, rfl, ⟨by simp, fun ⟨l, hl'⟩ => ?_⟩, fun _ => rfl, by simp⟩
          obtain ⟨m, -, hmg, h, h'⟩ := key l hl'
          simp only [Option.some.injEq] at h
          subst h
          exact absurd hmg hg
  | succ limit ih =>
    intro top west ls h0 ht hw
    obtain ⟨⟨r, hr⟩, hs⟩ := guideRow_spec hP top ht west hw
    rw [guidedRec_eq, if_neg h0, hr, Option.bind_some]
    have key : ∀ l, Leads P d goal (limit + 1 + 1) top west l →
        ∃ mid l', l = mid :: l' ∧ r = some mid ∧ mid.getLast? = some west ∧ GRowStep P d top mid := by
      rintro l ⟨h1, h2, mid, h3, h4⟩
      cases l with
      | nil => simp at h3
      | cons m l =>
        simp only [List.head?_cons, Option.some.injEq] at h3
        subst h3
        have hh := h1.head
        obtain ⟨g1, w', g2, g3⟩ := hh
        rw [h4, Option.some.injEq] at g2
        subst g2
        have := (hs m).2 ⟨g1, g3⟩
        rw [hr, Option.some.injEq] at this
        exact ⟨m, l, rfl, this, h4, h1.head⟩
    cases r with
    | none =>
      refine ⟨.nil, ls, rfl, ⟨by simp, fun ⟨l, hl⟩ => ?_⟩, fun _ => rfl, by simp⟩
      obtain ⟨mid, -, -, h, -⟩ := key l hl
      cases h
    | some mid =>
      simp only
      obtain ⟨g1, g2⟩ := (hs mid).1 hr
      by_cases hl : mid.getLast? ≠ some west
      · rw [if_pos hl]
        refine ⟨.may, ls, rfl, ⟨by simp, fun ⟨l, hl'⟩ => ?_⟩, fun _ => rfl, by simp⟩
        obtain ⟨m, -, -, h, h', -⟩ := key l hl'
        simp only [Option.some.injEq] at h
        subst h
        exact absurd h' hl
      · rw [if_neg hl]
        push Not at hl
        have hrow : GRowStep P d top mid := ⟨g1, west, hl, g2⟩
        by_cases hg : mid = goal
        · rw [if_pos hg]
          have hL : Leads P d goal (limit + 1 + 1) top west [mid] :=
            ⟨by rw [← hg]; exact GRows.single hrow, by simp, mid, rfl, hl⟩
          refine ⟨.yes, ls, rfl, ⟨fun _ => ⟨_, hL⟩, fun _ => rfl⟩, fun h => absurd rfl h, fun _ => ⟨_, hL, fun i => ?_⟩⟩
          constructor
          · exact .inl
          · rintro (h | ⟨k, x, y, z, w, -, -, h, -⟩)
            · exact h
            · simp at h
        · rw [if_neg hg]
          have hm0 : mid ≠ [] := by
            rintro rfl
            simp at hl
          obtain ⟨t, ls', e1, e2, e3, e4⟩ := guideLoop_spec (mark := markRow d west top mid) (List.range d)
            (fun w hw' ls => ih mid w ls hm0 (rowStep_lt hrow) (List.mem_range.1 hw')) true ls
          refine ⟨t, ls', e1, e2.trans ⟨?_, ?_⟩, e3, fun h => ?_⟩
          · rintro ⟨w, -, l, hl1, hl2, hl3⟩
            exact ⟨mid :: l, GRows.cons hrow hl1, by simpa using hl2, mid, rfl, hl⟩
          · rintro ⟨l, hl'⟩
            obtain ⟨m, l', rfl, h, -, -⟩ := key l hl'
            simp only [Option.some.injEq] at h
            subst h
            obtain ⟨k0, k1⟩ := hl'.1.tail hg
            obtain ⟨m', l'', rfl⟩ := List.exists_cons_of_ne_nil k0
            obtain ⟨-, w', q1, q2⟩ := k1.head
            refine ⟨w', ?_, m' :: l'', k1, by simpa using hl'.2.1, m', rfl, q1⟩
            have : w' ∈ m' := by
              exact List.mem_of_getLast? q1
            exact List.mem_range.2 (rowStep_lt k1.head w' this)
          · obtain ⟨w, -, l, ls0, ⟨hl1, hl2, hl3⟩, rfl, hls⟩ := e4 h
            refine ⟨mid :: l, ⟨GRows.cons hrow hl1, by simpa using hl2, mid, rfl, hl⟩, fun i => ?_⟩
            have hl0 : l ≠ [] := by
              rintro rfl
              obtain ⟨_, h, _⟩ := hl3
              simp at h
            rw [mem_markRow top mid g1, hls, marked_cons hl0 hl]
            tauto

/-! ### Rows and periodic tilings -/

theorem west_getD {m : List ℕ} {w : ℕ} (hw : m.getLast? = some w) {j : ℕ} (hj : j < m.length) :
    (w :: m).getD j 0 = m.getD ((j + m.length - 1) % m.length) 0 := by
  have hn : 0 < m.length := by omega
  rcases j with _ | j
  · rw [List.getLast?_eq_getElem?] at hw
    simp only [List.getD_cons_zero, Nat.zero_add]
    rw [Nat.mod_eq_of_lt (by omega), List.getD_eq_getElem?_getD, hw]; rfl
  · simp only [List.getD_cons_succ]
    rw [show j + 1 + m.length - 1 = j + m.length by omega, Nat.add_mod_right, Nat.mod_eq_of_lt (by omega)]

theorem rowStep_tile {P : List ℕ} {d : ℕ} {x y : List ℕ} (h : GRowStep P d x y) {n : ℕ} (hn : x.length = n)
    (h0 : 1 ≤ n) (c : ℕ) :
    PpgStep P d (y.getD ((c + n - 1) % n) 0) (x.getD (c % n) 0) (y.getD (c % n) 0) := by
  obtain ⟨h1, w, h2, h3⟩ := h
  have hlt : c % n < n := Nat.mod_lt _ (by omega)
  have := h3 (c % n) (by omega)
  rw [west_getD h2 (by omega), h1, hn] at this
  have e : (c % n + n - 1) % n = (c + n - 1) % n := by
    rw [Nat.add_sub_assoc h0, Nat.add_sub_assoc h0, Nat.mod_add_mod]
  rwa [e] at this

theorem grows_length {P : List ℕ} {d : ℕ} {goal top : List ℕ} {l : List (List ℕ)} (h : GRows P d goal top l) :
    ∀ (i : ℕ) (x : List ℕ), (top :: l)[i]? = some x → x.length = top.length := by
  intro i
  induction i with
  | zero => intro x hx; simp only [List.getElem?_cons_zero, Option.some.injEq] at hx; rw [hx]
  | succ i ih =>
    intro x hx
    have hi : i + 1 < (top :: l).length := (List.getElem?_eq_some_iff.1 hx).1
    have hz := List.getElem?_eq_getElem (l := top :: l) (i := i) (by omega)
    rw [(h.2 i _ _ hz hx).1, ih _ hz]

theorem torus_of_rows {P : List ℕ} {d : ℕ} {goal : List ℕ} {L : List (List ℕ)} (h0 : 1 ≤ goal.length)
    (h : GRows P d goal goal L) :
    ∃ T, Torus P d goal.length L.length T ∧
      ∀ r c, T r (c + 1) = ((goal :: L).getD (r % L.length) []).getD (c % goal.length) 0 := by
  set n := goal.length with hn
  have hL : 1 ≤ L.length := by
    have := h.1
    cases L with
    | nil => simp at this
    | cons a l => simp
  have hlen := grows_length h
  have hget : ∀ i, i < (goal :: L).length → (goal :: L)[i]? = some ((goal :: L).getD i []) := by
    intro i hi
    rw [List.getD_eq_getElem?_getD, List.getElem?_eq_getElem hi]; rfl
  refine ⟨fun r c => ((goal :: L).getD (r % L.length) []).getD ((c + n - 1) % n) 0, ⟨fun r c => ?_, fun r c => ?_,
    fun r c => ?_⟩, fun r c => ?_⟩
  · have hr : r % L.length < L.length := Nat.mod_lt _ hL
    have hx := hget (r % L.length) (by simp; omega)
    have hy := hget (r % L.length + 1) (by simp; omega)
    have hs := h.2 _ _ _ hx hy
    have e : (goal :: L).getD (r % L.length + 1) [] = (goal :: L).getD ((r + 1) % L.length) [] := by
      by_cases hl : r % L.length + 1 = L.length
      · have : (r + 1) % L.length = 0 := by
          rw [← Nat.mod_add_mod, hl, Nat.mod_self]
        rw [this, hl, List.getD_cons_zero, List.getD_eq_getElem?_getD]
        have := h.1
        rw [List.getLast?_eq_getElem?] at this
        rw [show L.length = L.length - 1 + 1 by omega, List.getElem?_cons_succ, this]; rfl
      · rw [← Nat.mod_add_mod r, Nat.mod_eq_of_lt (show r % L.length + 1 < L.length by omega)]
    have := rowStep_tile hs (hlen _ _ hx) h0 c
    rw [e] at this
    rw [show c + 1 + n - 1 = c + n by omega, Nat.add_mod_right]
    exact this
  · rw [Nat.add_mod_right]
  · rw [show c + n + n - 1 = c + n - 1 + n by omega, Nat.add_mod_right]
  · show (_ : List ℕ).getD ((c + 1 + n - 1) % n) 0 = _
    rw [show c + 1 + n - 1 = c + n by omega, Nat.add_mod_right]

/-- Row `r` of a tiling. -/
def rowOf (T : ℕ → ℕ → ℕ) (n r : ℕ) : List ℕ := (List.range n).map fun c => T r (c + 1)

theorem rowOf_getD {T : ℕ → ℕ → ℕ} {n r j : ℕ} (hj : j < n) : (rowOf T n r).getD j 0 = T r (j + 1) := by
  rw [rowOf, List.getD_eq_getElem?_getD, List.getElem?_map, List.getElem?_range hj]; rfl

theorem rowOf_step {P : List ℕ} {d n h : ℕ} {T : ℕ → ℕ → ℕ} (ht : Torus P d n h T) (hn : 1 ≤ n) (r : ℕ) :
    GRowStep P d (rowOf T n r) (rowOf T n (r + 1)) := by
  refine ⟨by simp [rowOf], T (r + 1) n, ?_, fun j hj => ?_⟩
  · rw [List.getLast?_eq_getElem?, show (rowOf T n (r + 1)).length = n by simp [rowOf], rowOf, List.getElem?_map,
      List.getElem?_range (by omega)]
    simp only [Option.map_some, show n - 1 + 1 = n by omega]
  · have hj : j < n := by simpa [rowOf] using hj
    rw [rowOf_getD hj, rowOf_getD hj]
    rcases j with _ | j
    · simp only [List.getD_cons_zero]
      have := ht.tile r 0
      have hc := ht.cols (r + 1) 0
      rw [Nat.zero_add] at hc
      rw [hc]; exact this
    · simp only [List.getD_cons_succ]
      rw [rowOf_getD (by omega)]
      exact ht.tile r (j + 1)

theorem grows_of_torus {P : List ℕ} {d n h : ℕ} {T : ℕ → ℕ → ℕ} (ht : Torus P d n h T) (hn : 1 ≤ n) (hh : 2 ≤ h) :
    GRows P d (rowOf T n 0) (rowOf T n 1) ((List.range (h - 1)).map fun i => rowOf T n (i + 2)) := by
  refine ⟨?_, fun i x y hx hy => ?_⟩
  · rw [List.getLast?_eq_getElem?, List.length_map, List.length_range, List.getElem?_map,
      List.getElem?_range (by omega)]
    simp only [Option.map_some, Option.some.injEq, show h - 1 - 1 + 2 = 0 + h by omega]
    unfold rowOf
    refine List.map_congr_left fun c _ => ht.rows 0 _
  · have hi : i < h - 1 := by
      have := (List.getElem?_eq_some_iff.1 hy).1
      simp at this; omega
    have ey : y = rowOf T n (i + 2) := by
      simp only [List.getElem?_cons_succ, List.getElem?_map, List.getElem?_range hi, Option.map_some,
        Option.some.injEq] at hy
      exact hy.symm
    have ex : x = rowOf T n (i + 1) := by
      rcases i with _ | i
      · simpa using hx.symm
      · simp only [List.getElem?_cons_succ, List.getElem?_map, List.getElem?_range (show i < h - 1 by omega),
          Option.map_some, Option.some.injEq] at hx
        exact hx.symm
    rw [ex, ey]
    exact rowOf_step ht hn (i + 1)

theorem guidedLoop_spec {P : List ℕ} {d : ℕ} {goal : List ℕ} {k : ℕ} {top : List ℕ}
    {f : ℕ → Finset ℕ → Option (Trit3 × Finset ℕ)} (W : List ℕ)
    (hf : ∀ w ∈ W, ∀ ls, GRes P d goal k top w ls (f w ls)) (ls : Finset ℕ) :
    ∃ b ls', guidedLoop f W ls = some (b, ls') ∧ (b = true ↔ ∃ w ∈ W, ∃ l, Leads P d goal k top w l) ∧
      (b = true → ∃ l, GRows P d goal top l ∧ l.length ≤ k ∧ ∀ i, i ∈ ls' ↔ i ∈ ls ∨ Marked d top l i) := by
  induction W with
  | nil => exact ⟨false, ls, rfl, by simp, by simp⟩
  | cons w W ih =>
    obtain ⟨t, ls1, h1, h2, h3, h4⟩ := hf w (by simp) ls
    obtain ⟨b, ls', g1, g2, g3⟩ := ih fun w hw => hf w (by simp [hw])
    rw [guidedLoop, h1, Option.bind_some]
    by_cases ht : t = .yes
    · rw [if_pos ht]
      obtain ⟨l, hl, hm⟩ := h4 ht
      exact ⟨true, ls1, rfl, ⟨fun _ => ⟨w, by simp, l, hl⟩, fun _ => rfl⟩, fun _ => ⟨l, hl.1, hl.2.1, hm⟩⟩
    · rw [if_neg ht, h3 ht]
      refine ⟨b, ls', g1, g2.trans ⟨?_, ?_⟩, g3⟩
      · rintro ⟨w', hw, h⟩; exact ⟨w', by simp [hw], h⟩
      · rintro ⟨w', hw, h⟩
        rcases List.mem_cons.1 hw with rfl | hw
        · exact absurd (h2.2 h) ht
        · exact ⟨w', hw, h⟩

end Verif.Proofs
