import Verif.Proofs.Guided

/-!
Properties C67 to C70: the parts of the search for ring protocols: closed walks, excluded actions, tile
continuations, livelocks that start with a given row.
-/

set_option linter.unusedSectionVars false

namespace Verif.Props
open Verif.Model Verif.Spec Verif.Proofs

/-! ### C67 -/

/-- C67: `cycle_ck_from` always ends; it succeeds exactly when a closed walk leads through the node, and then the
stack shows such a walk, beginning with the node. -/
theorem C67_cycle_from_exact {arcs : List (ℕ × ℕ)} {init fuel : ℕ}
    (hf : 2 * (arcs.map Prod.snd).toFinset.card + 1 < fuel) :
    ∃ l, cycleCkFrom fuel arcs init = some l ∧
      (l ≠ [] ↔ OnClosedWalk (fun x y => (x, y) ∈ arcs) init) ∧
      (l ≠ [] → l.head? = some init ∧ ClosedWalk (fun x y => (x, y) ∈ arcs) l) := by
  obtain ⟨l, h1, h2 | h2⟩ := cycleCkFrom_spec (init := init) hf
  · exact ⟨l, h1, ⟨fun h => absurd h2.1 h, fun h => absurd h h2.2⟩, fun h => absurd h2.1 h⟩
  · exact ⟨l, h1, ⟨fun _ => onClosedWalk_of_closedWalk h2.2 h2.1, fun _ => h2.2.1⟩, fun _ => h2⟩

/-- A dead end is left again and the closed walk is found. -/
example : cycleCkFrom 20 [(0, 1), (1, 2), (1, 3), (3, 0), (2, 2)] 0 = some [0, 1, 3] ∧
    cycleCkFrom 20 [(0, 1), (1, 2), (1, 3), (2, 2)] 0 = some [] := by decide

/-! ### C68 -/

/-- C68: `trim_coexist` removes exactly the actions that exclude the given one. -/
theorem C68_trim_exact {d : ℕ} (hd : d ≤ 256) {nw : Bool} {s : Finset ℕ} {a b c a' b' c' : ℕ}
    (ha : a < d) (hb : b < d) (hc : c < d) (ha' : a' < d) (hb' : b' < d) (hc' : c' < d) :
    id3 d a' b' c' ∈ trimCoexist d nw s (id3 d a b c) ↔
      id3 d a' b' c' ∈ s ∧ ¬ Exclude nw (a, b, c) (a', b', c') :=
  mem_trimCoexist hd (x := (a, b, c)) (y := (a', b', c')) ⟨ha, hb, hc⟩ ⟨ha', hb', hc'⟩

/-- C68: the relation is symmetric, so the order in which actions are picked does not matter. -/
theorem C68_exclude_symm {nw : Bool} {x y : ℕ × ℕ × ℕ} (h : Exclude nw x y) : Exclude nw y x := by
  obtain ⟨a, b, c⟩ := x
  obtain ⟨a', b', c'⟩ := y
  simp only [Exclude] at *
  rcases h with ⟨rfl, rfl⟩ | ⟨rfl, rfl⟩ | ⟨rfl, rfl⟩ | ⟨rfl, rfl, rfl, rfl⟩ | ⟨rfl, rfl, rfl, rfl⟩ |
    ⟨rfl, rfl, rfl | rfl⟩ <;> simp

/-- An excluded action is never a candidate again: a set built by picking candidates and trimming has pairwise
compatible actions. -/
theorem C68_compatible {d : ℕ} (hd : d ≤ 256) {nw : Bool} {s : Finset ℕ} {x y : ℕ × ℕ × ℕ} (hx : InDom d x)
    (hy : InDom d y) (h : idOfT d y ∈ trimCoexist d nw s (idOfT d x)) : ¬ Exclude nw x y ∧ ¬ Exclude nw y x :=
  have h := ((mem_trimCoexist hd hx hy).1 h).2
  ⟨h, fun h' => h (C68_exclude_symm h')⟩

/-- Copying excludes the action with the same enabling values; an unrelated action stays. -/
example : trimCoexist 3 false {id3 3 0 1 0, id3 3 0 1 2, id3 3 1 0 1, id3 3 1 0 2} (id3 3 0 1 0) = {id3 3 1 0 2} := by
  decide

/-! ### C69 -/

/-- C69: a node of the digraph of tile continuations is on a closed walk exactly when three rows of tiles that repeat
lead through it.  `P` is the table of the actions `s`. -/
theorem C69_closed_walk_iff_band {d : ℕ} (hd : d ≤ 256) {s : Finset ℕ} {P : List ℕ} (hP : PpgTable P d)
    (hs : ∀ a b c, PpgStep P d a b c ↔ InDom d (a, b, c) ∧ id3 d a b c ∈ s) {a b x : ℕ} (ha : a < d) (hb : b < d)
    (hx : x < d) :
    OnClosedWalk (fun u v => (u, v) ∈ tileContArcs d s P) (id3 d a b x) ↔
      ∃ n t m l, Band (PpgStep P d) n t m l ∧ m 0 = a ∧ t 1 = b ∧ l 1 = x := by
  have e : ActOf d s = PpgStep P d := by
    funext a b c; exact propext (hs a b c).symm
  have := tileCont_onClosed hd hP hs (x := (a, b, x)) ⟨ha, hb, hx⟩
  rw [e] at this
  simp only [Prod.mk.injEq] at this
  exact this

/-- C69: every action of a periodic tiling is on a closed walk of the digraph. -/
theorem C69_tile_kept {d : ℕ} (hd : d ≤ 256) {s : Finset ℕ} {P : List ℕ} (hP : PpgTable P d)
    (hs : ∀ a b c, PpgStep P d a b c ↔ InDom d (a, b, c) ∧ id3 d a b c ∈ s) {w h : ℕ} {T : ℕ → ℕ → ℕ} (hw : 1 ≤ w)
    (hh : 1 ≤ h) (ht : Torus P d w h T) (r c : ℕ) :
    ∃ x < d, OnClosedWalk (fun u v => (u, v) ∈ tileContArcs d s P) (id3 d (T (r + 1) c) (T r (c + 1)) x) := by
  obtain ⟨t, m, l, hb, h1, h2, -⟩ := band_of_torus hw hh ht r c
  have ht := ht.tile r c
  have hx := (hb.bot 0).2.2.1
  exact ⟨l 1, hx, (C69_closed_walk_iff_band hd hP hs ht.1 ht.2.1 hx).2 ⟨w, t, m, l, hb, h1, h2, rfl⟩⟩

/-- C69: the larger digraph keeps every action of every periodic tiling made of some of the actions `s`.  So an action
without closed walk there is in no periodic tiling of any protocol whose actions are among `s`. -/
theorem C69_overapprox_keeps {d : ℕ} (hd : d ≤ 256) {s : Finset ℕ} {P : List ℕ}
    (hs : ∀ a b c, PpgStep P d a b c → id3 d a b c ∈ s) {w h : ℕ} {T : ℕ → ℕ → ℕ} (hw : 1 ≤ w) (hh : 1 ≤ h)
    (ht : Torus P d w h T) (r c : ℕ) :
    ∃ x < d, OnClosedWalk (fun u v => (u, v) ∈ overContArcs d s) (id3 d (T (r + 1) c) (T r (c + 1)) x) := by
  obtain ⟨t, m, l, hb, h1, h2, -⟩ := band_of_torus hw hh ht r c
  have := overCont_onClosed hd (fun a b c h => ⟨⟨h.1, h.2.1, h.2.2.1⟩, hs a b c h⟩) hb
  rw [h1, h2] at this
  exact ⟨l 1, (hb.bot 0).2.2.1, this⟩

/-- C69: a closed walk of the smaller digraph is one of the larger digraph. -/
theorem C69_overapprox_larger {d : ℕ} (hd : d ≤ 256) {s s' : Finset ℕ} (hss : s ⊆ s') {P : List ℕ}
    (hP : PpgTable P d) (hs : ∀ a b c, PpgStep P d a b c ↔ InDom d (a, b, c) ∧ id3 d a b c ∈ s) {x : ℕ}
    (h : OnClosedWalk (fun u v => (u, v) ∈ tileContArcs d s P) x) :
    OnClosedWalk (fun u v => (u, v) ∈ overContArcs d s') x := by
  have key : ∀ u v, (u, v) ∈ tileContArcs d s P → (u, v) ∈ overContArcs d s' := by
    intro u v h
    obtain ⟨x, y, h1, h2, h3, h4⟩ := (mem_tileContArcs hd hP hs).1 h
    exact (mem_overContArcs hd).2 ⟨x, y, h1, h2, h3.mono fun a b c h => h.mono hss, h4⟩
  unfold OnClosedWalk at *
  have : ∀ u v, Relation.TransGen (fun u v => (u, v) ∈ tileContArcs d s P) u v →
      Relation.TransGen (fun u v => (u, v) ∈ overContArcs d s') u v := by
    intro u v h
    induction h with
    | single e => exact .single (key _ _ e)
    | tail _ e ih => exact ih.tail (key _ _ e)
  exact this _ _ h

/-- The table of the actions of a set in which no two actions are enabled together. -/
theorem C69_table {d : ℕ} (hd : d ≤ 256) {s : Finset ℕ}
    (hdet : ∀ a b c c', a < d → b < d → c < d → c' < d → id3 d a b c ∈ s → id3 d a b c' ∈ s → c = c') :
    PpgTable (initPpgfun d s) d ∧
      ∀ a b c, PpgStep (initPpgfun d s) d a b c ↔ InDom d (a, b, c) ∧ id3 d a b c ∈ s :=
  initPpgfun_spec hd fun a b c c' h1 h2 =>
    hdet a b c c' h1.1.1 h1.1.2.1 h1.1.2.2 h2.1.2.2 h1.2 h2.2

/-- Three actions with a livelock of one column: all are on a closed walk.  Without the third, the digraph has no
arcs. -/
example : initPpgfun 3 {3, 16, 20} = [3, 0, 3, 3, 3, 1, 2, 3, 3] ∧
    cycleCkFrom 60 (tileContArcs 3 {3, 16, 20} [3, 0, 3, 3, 3, 1, 2, 3, 3]) (id3 3 0 1 2) = some [id3 3 0 1 2] ∧
    tileContArcs 3 {3, 20} (initPpgfun 3 {3, 20}) = [] := by
  decide +kernel

/-! ### C70 -/

private theorem row_of_closed {P : List ℕ} {d : ℕ} {acts : List (ℕ × ℕ)} {top : List ℕ}
    (h : ClosedRow P d acts top) :
    ∃ west, top.getLast? = some west ∧ GRowStep P d (acts.map Prod.snd) top ∧
      ∀ j < acts.length, (west :: top).getD j 0 = (acts.getD j (0, 0)).1 := by
  obtain ⟨h0, h1, h2⟩ := h
  have hn : 0 < acts.length := List.length_pos_iff.2 h0
  have hw : ∀ j < acts.length, (top.getD (acts.length - 1) 0 :: top).getD j 0 = (acts.getD j (0, 0)).1 := by
    intro j hj
    rcases j with _ | j
    · have := (h2 (acts.length - 1) (by omega)).2
      rw [show acts.length - 1 + 1 = acts.length by omega, Nat.mod_self] at this
      simp only [List.getD_cons_zero]
      exact this.symm
    · have := (h2 j (by omega)).2
      rw [Nat.mod_eq_of_lt hj] at this
      simp only [List.getD_cons_succ]
      exact this.symm
  have hl : top.getLast? = some (top.getD (acts.length - 1) 0) := by
    rw [List.getLast?_eq_getElem?, h1, List.getD_eq_getElem?_getD, List.getElem?_eq_getElem (by omega)]; rfl
  refine ⟨_, hl, ⟨by simp [h1], _, hl, fun j hj => ?_⟩, hw⟩
  have hj : j < acts.length := by simpa using hj
  rw [hw j hj]
  have : (acts.map Prod.snd).getD j 0 = (acts.getD j (0, 0)).2 := by
    simp [List.getD_eq_getElem?_getD, hj]
  rw [this]
  exact (h2 j hj).1

private theorem mem_foldl_insert {α : Type} (f : α → ℕ) (l : List α) (s : Finset ℕ) (i : ℕ) :
    i ∈ l.foldl (fun s t => insert (f t) s) s ↔ i ∈ s ∨ ∃ t ∈ l, i = f t := by
  induction l generalizing s with
  | nil => simp
  | cons x l ih =>
    rw [List.foldl_cons, ih, Finset.mem_insert]
    simp only [List.mem_cons, exists_eq_or_imp]
    tauto

private theorem guided_rows {P : List ℕ} {d limit : ℕ} (hP : PpgTable P d) {acts : List (ℕ × ℕ)} {top : List ℕ}
    (hr : ClosedRow P d acts top) (hl : 1 ≤ limit) :
    ∃ b ls, guidedCk acts P d limit = some (b, ls) ∧
      (b = true ↔ ∃ l, GRows P d (acts.map Prod.snd) top l ∧ l.length ≤ limit) ∧
      (b = true → ∃ l, GRows P d (acts.map Prod.snd) top l ∧ l.length ≤ limit ∧
        ∀ i ∈ ls, (∃ w, top.getLast? = some w ∧ RowTile d w (acts.map Prod.snd) top i) ∨ Marked d top l i) := by
  obtain ⟨west, hw, hrow, hws⟩ := row_of_closed hr
  obtain ⟨h0, h1, h2⟩ := hr
  have hm : (acts.mapM fun p => (ppgAt P d p.1 p.2).bind fun c => if c < d then some c else none) = some top := by
    clear hw hrow hws h0
    have h3 : ∀ i < acts.length, PpgStep P d (acts.getD i (0, 0)).1 (acts.getD i (0, 0)).2 (top.getD i 0) :=
      fun i hi => (h2 i hi).1
    clear h2
    induction acts generalizing top with
    | nil => cases top with
      | nil => rfl
      | cons => simp at h1
    | cons p acts ih =>
      cases top with
      | nil => simp at h1
      | cons c top =>
        have h0 := h3 0 (by simp)
        simp only [List.getD_cons_zero] at h0
        have e : ((ppgAt P d p.1 p.2).bind fun c => if c < d then some c else none) = some c := by
          rw [ppgAt_some.2 ⟨h0.1, h0.2.1, h0.2.2.2⟩, Option.bind_some, if_pos h0.2.2.1]
        rw [List.mapM_cons, e, ih (top := top) (by simpa using h1) (fun i hi => by
          have := h3 (i + 1) (by simpa using hi)
          simpa only [List.getD_cons_succ] using this)]
        rfl
  unfold guidedCk
  rw [if_neg (by omega), hm, Option.bind_some]
  have htop0 : top ≠ [] := by
    rintro rfl
    simp at hw
  obtain ⟨b, ls, e1, e2, e3⟩ := guidedLoop_spec (P := P) (d := d) (goal := acts.map Prod.snd) (k := limit - 1 + 1)
    (top := top) (List.range d)
    (fun w hw' ls => guidedRec_spec hP (limit - 1) top w ls htop0 (rowStep_lt hrow) (List.mem_range.1 hw'))
    ((acts.zip top).foldl (fun ls t => insert (id3 d t.1.1 t.1.2 t.2) ls) ∅)
  rw [show limit - 1 + 1 = limit by omega] at e2 e3
  refine ⟨b, ls, e1, e2.trans ⟨?_, ?_⟩, fun hb => ?_⟩
  · rintro ⟨w, -, l, hl⟩; exact ⟨l, hl.1, hl.2.1⟩
  · rintro ⟨l, hl1, hl2⟩
    obtain ⟨mid, l', rfl⟩ : ∃ mid l', l = mid :: l' := by
      cases l with
      | nil => have := hl1.1; simp at this
      | cons a l => exact ⟨a, l, rfl⟩
    obtain ⟨-, w, hw1, -⟩ := hl1.head
    exact ⟨w, List.mem_range.2 (rowStep_lt hl1.head w (List.mem_of_getLast? hw1)), _, hl1, hl2, mid, rfl, hw1⟩
  · obtain ⟨l, hl1, hl2, hls⟩ := e3 hb
    refine ⟨l, hl1, hl2, fun i hi => ?_⟩
    rcases (hls i).1 hi with h | h
    · rw [mem_foldl_insert (fun t : (ℕ × ℕ) × ℕ => id3 d t.1.1 t.1.2 t.2)] at h
      rcases h with h | ⟨t, ht, rfl⟩
      · simp at h
      · refine .inl ⟨west, hw, ?_⟩
        obtain ⟨j, hj, rfl⟩ := List.mem_iff_getElem.1 ht
        have hj' : j < acts.length := by simp at hj; omega
        refine ⟨j, by simpa using hj', ?_⟩
        rw [hws j hj']
        simp [List.getD_eq_getElem?_getD, hj', h1]
    · exact .inr h

/-- C70: started with a closed row of tiles, `guided_livelock_ck` finds out whether some periodic tiling of the same
width starts with this row and repeats after at most `limit + 1` rows; the set it collects consists of
actions of such a tiling. -/
theorem C70_guided_exact {P : List ℕ} {d limit : ℕ} (hP : PpgTable P d) {acts : List (ℕ × ℕ)} {top : List ℕ}
    (hr : ClosedRow P d acts top) (hl : 1 ≤ limit) :
    ∃ b ls, guidedCk acts P d limit = some (b, ls) ∧
      (b = true ↔ ∃ h T, 2 ≤ h ∧ h ≤ limit + 1 ∧ Torus P d acts.length h T ∧ StartsWith T acts top) ∧
      (b = true → ∃ h T, 2 ≤ h ∧ h ≤ limit + 1 ∧ Torus P d acts.length h T ∧ StartsWith T acts top ∧
        ∀ i ∈ ls, ∃ r c, i = id3 d (T (r + 1) c) (T r (c + 1)) (T (r + 1) (c + 1))) := by
  obtain ⟨b, ls, e1, e2, e3⟩ := guided_rows hP hr hl
  obtain ⟨west, hw, hrow, hws⟩ := row_of_closed hr
  obtain ⟨h0, h1, h2⟩ := hr
  have hn : 1 ≤ acts.length := List.length_pos_iff.2 h0
  have hlen : (acts.map Prod.snd).length = acts.length := by simp
  have hsnd : ∀ j < acts.length, (acts.map Prod.snd).getD j 0 = (acts.getD j (0, 0)).2 := by
    intro j hj; simp [List.getD_eq_getElem?_getD, hj]
  have tor : ∀ l, GRows P d (acts.map Prod.snd) top l → l.length ≤ limit →
      ∃ T, Torus P d acts.length (l.length + 1) T ∧ StartsWith T acts top ∧ 1 ≤ l.length ∧
        ∀ r c, T r (c + 1) = ((acts.map Prod.snd :: top :: l).getD (r % (l.length + 1)) []).getD (c % acts.length) 0 := by
    intro l hl1 hl2
    have hll : 1 ≤ l.length := by
      cases l with
      | nil => have := hl1.1; simp at this
      | cons => simp
    obtain ⟨T, ht, hT⟩ := torus_of_rows (by rw [hlen]; exact hn) (GRows.cons hrow hl1)
    rw [hlen, List.length_cons] at ht
    simp only [hlen, List.length_cons] at hT
    refine ⟨T, ht, fun i hi => ⟨?_, ?_⟩, hll, hT⟩
    · rw [hT, Nat.zero_mod, Nat.mod_eq_of_lt hi, List.getD_cons_zero, hsnd i hi]
    · rw [hT, Nat.mod_eq_of_lt hi, Nat.mod_eq_of_lt (by omega), List.getD_cons_succ, List.getD_cons_zero]
  refine ⟨b, ls, e1, e2.trans ⟨?_, ?_⟩, fun hb => ?_⟩
  · rintro ⟨l, hl1, hl2⟩
    obtain ⟨T, g1, g2, g3, -⟩ := tor l hl1 hl2
    exact ⟨_, T, by omega, by omega, g1, g2⟩
  · rintro ⟨h, T, hh, hh2, ht, hs⟩
    have r0 : rowOf T acts.length 0 = acts.map Prod.snd := by
      refine List.ext_getElem (by simp [rowOf]) fun j hj1 hj2 => ?_
      have hj : j < acts.length := by simpa using hj2
      have := (hs j hj).1
      rw [← hsnd j hj] at this
      simpa [rowOf, List.getD_eq_getElem?_getD, hj] using this
    have r1 : rowOf T acts.length 1 = top := by
      refine List.ext_getElem (by simp [rowOf, h1]) fun j hj1 hj2 => ?_
      have hj : j < acts.length := by omega
      have := (hs j hj).2
      simpa [rowOf, List.getD_eq_getElem?_getD, hj, hj2] using this
    have := grows_of_torus ht hn hh
    rw [r0, r1] at this
    exact ⟨_, this, by simp; omega⟩
  · obtain ⟨l, hl1, hl2, hls⟩ := e3 hb
    obtain ⟨T, g1, g2, g3, hT⟩ := tor l hl1 hl2
    refine ⟨_, T, by omega, by omega, g1, g2, fun i hi => ?_⟩
    have hG := GRows.cons hrow hl1
    have key : ∀ k < (top :: l).length, ∀ (x y : List ℕ) (w : ℕ), (acts.map Prod.snd :: top :: l)[k]? = some x →
        (acts.map Prod.snd :: top :: l)[k + 1]? = some y → y.getLast? = some w → RowTile d w x y i →
        ∃ r c, i = id3 d (T (r + 1) c) (T r (c + 1)) (T (r + 1) (c + 1)) := by
      rintro k hk x y w hx hy hyw ⟨j, hj, rfl⟩
      have lx := grows_length hG _ _ hx
      have ly := grows_length hG _ _ hy
      rw [hlen] at lx ly
      have hj' : j < acts.length := by omega
      have hk' : k < l.length + 1 := by simpa using hk
      have ex : ∀ c, T k (c + 1) = x.getD (c % acts.length) 0 := by
        intro c
        rw [hT, Nat.mod_eq_of_lt hk', List.getD_eq_getElem?_getD (l := acts.map Prod.snd :: top :: l), hx]; rfl
      have ey : ∀ c, T (k + 1) (c + 1) = y.getD (c % acts.length) 0 := by
        intro c
        rw [hT]
        by_cases hkl : k + 1 = l.length + 1
        · rw [hkl, Nat.mod_self, List.getD_cons_zero]
          have hgl := hG.1
          rw [List.getLast?_eq_getElem?] at hgl
          have hyy : y = acts.map Prod.snd := by
            rw [hkl, List.getElem?_cons_succ] at hy
            rw [List.length_cons, Nat.add_sub_cancel, hy, Option.some.injEq] at hgl
            exact hgl
          rw [hyy]
        · rw [Nat.mod_eq_of_lt (by omega), List.getD_eq_getElem?_getD (l := acts.map Prod.snd :: top :: l), hy]; rfl
      have e4 : T (k + 1) j = (w :: y).getD j 0 := by
        rw [west_getD hyw (by omega), ly]
        have := g1.cols (k + 1) j
        have e5 := ey (j + acts.length - 1)
        rw [show j + acts.length - 1 + 1 = j + acts.length by omega, this] at e5
        exact e5
      refine ⟨k, j, ?_⟩
      rw [e4, ex, ey, Nat.mod_eq_of_lt hj']
    rcases hls i hi with ⟨w, hw1, hw2⟩ | ⟨k, x, y, z, w, k1, k2, k3, k4, k5⟩
    · exact key 0 (by simp) _ _ w rfl rfl hw1 hw2
    · have : k + 1 < (top :: l).length := (List.getElem?_eq_some_iff.1 k2).1
      exact key (k + 1) this x y w (by simpa using k1) (by simpa using k2) k4 k5

/-- The three actions of one column: closed row of the first, and the search goes three rows down. -/
example : ClosedRow [3, 0, 3, 3, 3, 1, 2, 3, 3] 3 [(0, 1)] [0] :=
  ⟨by simp, rfl, fun i hi => by
    have : i = 0 := by simpa using hi
    subst this
    exact ⟨⟨by decide, by decide, by decide, rfl⟩, rfl⟩⟩

/-- C70, finding: the set that `guided_livelock_ck` collects can miss actions of the livelock, since the last row is
not recorded.  Here the livelock needs three actions, the set has only two, and these two alone have no livelock
on any ring. -/
theorem C70_livelock_set_incomplete :
    guidedCk [(0, 1)] (initPpgfun 3 {3, 16, 20}) 3 2 = some (true, {3, 20}) ∧
    ∀ n : ℕ, 1 ≤ n → ¬ HasLivelock (PpgProtocol (initPpgfun 3 {3, 20}) 3 : ZMod n → ℕ → ℕ → ℕ → Prop) := by
  refine ⟨by decide +kernel, fun n hn => ?_⟩
  have e : initPpgfun 3 {3, 20} = [3, 0, 3, 3, 3, 3, 2, 3, 3] := by decide +kernel
  rw [e]
  exact C30_no_livelock (limit := 4) (fuel := 4) (by decide) (by omega) (by rw [ppgSelfDisabling_iff]; decide)
    (by decide +kernel) hn

/-- C70, finding: as a consequence the search removes from the candidates of a smaller depth an action that is
part of no livelock with the actions picked there.  Action 3 is picked at the first depth and 16 at the second;
when 20 is tried at the third, it is also removed from the candidates that go with 3 alone. -/
theorem C70_prunes_too_much :
    (periodicLeads ⟨3, 9, 1, 3, true, false, 0⟩ 60 {3, 16, 20} (initPpgfun 3 {3, 16, 20})
      [{3, 16, 20, 25}, {16, 20, 25}, {20, 25}] {25}).map
        (fun r => (r.1, r.2.map (eachAct 3))) = some (.nil, [[3, 16, 20, 25], [16, 25], [25]]) := by
  decide +kernel

end Verif.Props
