import Verif.Model.Aperiodic
import Verif.Proofs.WangCommute
import Mathlib.Data.List.Infix

/-!
The actions computed by the reductions of `src/uni/aperiodic.cc` are the action tiles, numbered.
-/

namespace Verif.Proofs
open Verif.Model Verif.Spec

/-! ### Numbering of symbols -/

theorem idxOf_prefix {m m' : List Sym} (h : m <+: m') {s : Sym} (hs : s ∈ m) : m'.idxOf s = m.idxOf s := by
  obtain ⟨l, rfl⟩ := h
  rw [List.idxOf_append_of_mem hs]

theorem lookupSym_spec (m : List Sym) (s : Sym) : m <+: (lookupSym m s).1 ∧ (m.Nodup → (lookupSym m s).1.Nodup) ∧
    s ∈ (lookupSym m s).1 ∧ (lookupSym m s).2 = (lookupSym m s).1.idxOf s := by
  unfold lookupSym
  split
  case isTrue h => exact ⟨List.prefix_rfl, id, h, rfl⟩
  case isFalse h =>
    refine ⟨List.prefix_append _ _, fun hn => ?_, by simp, ?_⟩
    · exact List.nodup_append.2 ⟨hn, by simp, fun a ha b hb => by
        rw [List.mem_singleton.1 hb]; rintro rfl; exact h ha⟩
    · rw [List.idxOf_append_of_notMem h]; simp

theorem mem_ascInsert {α : Type} [DecidableEq α] {lt : α → α → Bool} {x y : α} {l : List α} :
    y ∈ ascInsert lt x l ↔ y = x ∨ y ∈ l := by
  induction l with
  | nil => simp [ascInsert]
  | cons a l ih =>
    unfold ascInsert
    split
    case isTrue h => subst h; simp
    case isFalse h =>
      split
      · simp
      · simp only [List.mem_cons, ih]; tauto

theorem mem_putActs {l : List (ℕ × ℕ × ℕ)} {acts : List UniAct} {x : UniAct} :
    x ∈ l.foldl putAct acts ↔ x ∈ acts ∨ ∃ t ∈ l, x = (toByte t.1, toByte t.2.1, toByte t.2.2) := by
  induction l generalizing acts with
  | nil => simp
  | cons t l ih =>
    rw [List.foldl_cons, ih]
    unfold putAct
    rw [mem_ascInsert]
    simp only [List.mem_cons, exists_eq_or_imp]
    tauto

/-- A triple of symbols as an action. -/
def encAct (m : List Sym) (p : Sym × Sym × Sym) : UniAct :=
  (toByte (m.idxOf p.1), toByte (m.idxOf p.2.1), toByte (m.idxOf p.2.2))

theorem mem_putActs_map {l : List (ℕ × ℕ × ℕ)} {S : List (Sym × Sym × Sym)} {m : List Sym} {acts : List UniAct} {x : UniAct}
    (h : l.map (fun t => ((toByte t.1, toByte t.2.1, toByte t.2.2) : UniAct)) = S.map (encAct m)) :
    x ∈ l.foldl putAct acts ↔ x ∈ acts ∨ ∃ p ∈ S, x = encAct m p := by
  rw [mem_putActs]
  refine or_congr_right ?_
  have h2 : x ∈ l.map (fun t => ((toByte t.1, toByte t.2.1, toByte t.2.2) : UniAct)) ↔ x ∈ S.map (encAct m) := by rw [h]
  rw [List.mem_map, List.mem_map] at h2
  simpa only [eq_comm (a := x)] using h2

/-- The symbols of a triple have numbers. -/
def InMap (m : List Sym) (p : Sym × Sym × Sym) : Prop := p.1 ∈ m ∧ p.2.1 ∈ m ∧ p.2.2 ∈ m

theorem InMap.mono {m m' : List Sym} (h : m <+: m') {p : Sym × Sym × Sym} (hp : InMap m p) : InMap m' p :=
  ⟨h.subset hp.1, h.subset hp.2.1, h.subset hp.2.2⟩

theorem encAct_prefix {m m' : List Sym} (h : m <+: m') {p : Sym × Sym × Sym} (hp : InMap m p) :
    encAct m' p = encAct m p := by
  unfold encAct
  rw [idxOf_prefix h hp.1, idxOf_prefix h hp.2.1, idxOf_prefix h hp.2.2]

/-- What one tile adds: the actions of `S t`. -/
def TileSpec (m0 : List Sym) (f : List Sym × List UniAct → Wang → List Sym × List UniAct)
    (S : Wang → List (Sym × Sym × Sym)) : Prop :=
  ∀ (m : List Sym) (acts : List UniAct) (t : Wang), m0 <+: m → m.Nodup →
    m <+: (f (m, acts) t).1 ∧ (f (m, acts) t).1.Nodup ∧ (∀ p ∈ S t, InMap (f (m, acts) t).1 p) ∧
      ∀ x, x ∈ (f (m, acts) t).2 ↔ x ∈ acts ∨ ∃ p ∈ S t, x = encAct (f (m, acts) t).1 p

theorem fold_spec {m0 : List Sym} {f : List Sym × List UniAct → Wang → List Sym × List UniAct}
    {S : Wang → List (Sym × Sym × Sym)} (hf : TileSpec m0 f S) : ∀ (W : List Wang) (m : List Sym) (acts : List UniAct),
    m0 <+: m → m.Nodup → m <+: (W.foldl f (m, acts)).1 ∧ (W.foldl f (m, acts)).1.Nodup ∧
      (∀ t ∈ W, ∀ p ∈ S t, InMap (W.foldl f (m, acts)).1 p) ∧
      ∀ x, x ∈ (W.foldl f (m, acts)).2 ↔ x ∈ acts ∨ ∃ t ∈ W, ∃ p ∈ S t, x = encAct (W.foldl f (m, acts)).1 p := by
  intro W
  induction W with
  | nil => intro m acts h1 h2; exact ⟨List.prefix_rfl, h2, by simp, by simp⟩
  | cons t W ih =>
    intro m acts h1 h2
    obtain ⟨a1, a2, a3, a4⟩ := hf m acts t h1 h2
    obtain ⟨b1, b2, b3, b4⟩ := ih (f (m, acts) t).1 (f (m, acts) t).2 (h1.trans a1) a2
    rw [List.foldl_cons]
    refine ⟨a1.trans b1, b2, ?_, fun x => ?_⟩
    · intro t' ht' p hp
      rcases List.mem_cons.1 ht' with rfl | ht'
      · exact (a3 p hp).mono b1
      · exact b3 t' ht' p hp
    · rw [b4, a4, or_assoc]
      refine or_congr_right ?_
      constructor
      · rintro (⟨p, hp, e⟩ | ⟨t', ht', p, hp, e⟩)
        · exact ⟨t, by simp, p, hp, by rw [e]; exact (encAct_prefix b1 (a3 p hp)).symm⟩
        · exact ⟨t', by simp [ht'], p, hp, e⟩
      · rintro ⟨t', ht', p, hp, e⟩
        rcases List.mem_cons.1 ht' with rfl | ht'
        · exact .inl ⟨p, hp, by rw [e]; exact encAct_prefix b1 (a3 p hp)⟩
        · exact .inr ⟨t', ht', p, hp, e⟩

theorem getD_idxOf {m : List Sym} {s d : Sym} (h : s ∈ m) : m.getD (m.idxOf s) d = s := by
  rw [List.getD_eq_getElem?_getD, List.getElem?_eq_getElem (List.idxOf_lt_length_iff.2 h)]
  simp

theorem encAct_small {m : List Sym} (hm : m.length ≤ 256) {p : Sym × Sym × Sym} (hp : InMap m p) :
    encAct m p = (m.idxOf p.1, m.idxOf p.2.1, m.idxOf p.2.2) := by
  have : ∀ s ∈ m, toByte (m.idxOf s) = m.idxOf s := fun s hs =>
    Nat.mod_eq_of_lt (lt_of_lt_of_le (List.idxOf_lt_length_iff.2 hs) hm)
  unfold encAct
  rw [this _ hp.1, this _ hp.2.1, this _ hp.2.2]

/-! ### Tilings with numbers and with symbols -/

variable {α : Type} {R : α → α → α → Prop} {acts : List UniAct} {w h : ℕ}

/-- The numbers are a renaming of the symbols that occur. -/
structure Coded (R : α → α → α → Prop) (acts : List UniAct) (num : α → ℕ) (sym : ℕ → α) : Prop where
  mem : ∀ t, t ∈ acts ↔ ∃ x y z, R x y z ∧ t = (num x, num y, num z)
  inv : ∀ x y z, R x y z → sym (num x) = x ∧ sym (num y) = y ∧ sym (num z) = z

theorem Coded.acts_of_sym {num : α → ℕ} {sym : ℕ → α} (hc : Coded R acts num sym) {T : ℕ → ℕ → α}
    (ht : SymTorus R w h T) : ActTorus acts w h fun r c => num (T r c) :=
  ⟨fun r c => (hc.mem _).2 ⟨_, _, _, ht.tile r c, rfl⟩, fun r c => by rw [ht.rows], fun r c => by rw [ht.cols]⟩

theorem Coded.sym_of_acts {num : α → ℕ} {sym : ℕ → α} (hc : Coded R acts num sym) {T : ℕ → ℕ → ℕ}
    (ht : ActTorus acts w h T) : SymTorus R w h fun r c => sym (T r c) := by
  refine ⟨fun r c => ?_, fun r c => by rw [ht.rows], fun r c => by rw [ht.cols]⟩
  obtain ⟨x, y, z, hR, e⟩ := (hc.mem _).1 (ht.tile r c)
  obtain ⟨i1, i2, i3⟩ := hc.inv x y z hR
  simp only [Prod.mk.injEq] at e
  rw [e.1, e.2.1, e.2.2, i1, i2, i3]
  exact hR

/-! ### `ReduceToActionTiles` -/

/-- The key of a symbol. -/
def colKey : Col → Sym
  | .doll => (symMax, symMax, symMax)
  | .ri a => (a, 0, 1)
  | .up b => (b, 1, 1)
  | .cd c d => (c, d, symMax)

/-- The symbol of a key. -/
def keyCol (s : Sym) : Col :=
  if s.2.2 = symMax then if s.1 = symMax ∧ s.2.1 = symMax then .doll else .cd s.1 s.2.1
  else if s.2.1 = 0 then .ri s.1 else .up s.1

theorem keyCol_colKey {x : Col} (h : x ≠ .cd symMax symMax) : keyCol (colKey x) = x := by
  cases x with
  | doll => simp [colKey, keyCol]
  | ri a => simp [colKey, keyCol, symMax]
  | up b => simp [colKey, keyCol, symMax]
  | cd c d =>
    have : ¬ (c = symMax ∧ d = symMax) := fun hc => h (by rw [hc.1, hc.2])
    simp [colKey, keyCol, this]

/-- The actions of a tile. -/
def tileCols (t : Wang) : List (Col × Col × Col) :=
  [(.ri t.1, .up t.2.1, .cd t.2.2.1 t.2.2.2), (.doll, .cd t.2.2.1 t.2.2.2, .up t.2.2.1),
    (.cd t.2.2.1 t.2.2.2, .doll, .ri t.2.2.2), (.up t.2.2.1, .ri t.2.2.2, .doll)]

theorem colStep_iff {W : List Wang} {x y z : Col} : ColStep W x y z ↔ ∃ t ∈ W, (x, y, z) ∈ tileCols t := by
  constructor
  · intro h
    cases h with
    | tl hm => exact ⟨_, hm, by simp [tileCols]⟩
    | bl hm => exact ⟨_, hm, by simp [tileCols]⟩
    | tr hm => exact ⟨_, hm, by simp [tileCols]⟩
    | br hm => exact ⟨_, hm, by simp [tileCols]⟩
  · rintro ⟨⟨a, b, c, d⟩, hm, ht⟩
    simp only [tileCols, List.mem_cons, Prod.mk.injEq, List.not_mem_nil, or_false] at ht
    rcases ht with ⟨rfl, rfl, rfl⟩ | ⟨rfl, rfl, rfl⟩ | ⟨rfl, rfl, rfl⟩ | ⟨rfl, rfl, rfl⟩
    · exact .tl hm
    · exact .bl hm
    · exact .tr hm
    · exact .br hm

/-- A triple of keys. -/
def colKeys (p : Col × Col × Col) : Sym × Sym × Sym := (colKey p.1, colKey p.2.1, colKey p.2.2)

theorem reduceTile_spec : TileSpec [colKey .doll] (reduceTile 0) fun t => (tileCols t).map colKeys := by
  rintro m acts ⟨a, b, c, d⟩ hp hn
  obtain ⟨p1, n1, m1, e1⟩ := lookupSym_spec m (c, d, symMax)
  set cd := lookupSym m (c, d, symMax) with hcd
  obtain ⟨p2, n2, m2, e2⟩ := lookupSym_spec cd.1 (a, 0, 1)
  set a0 := lookupSym cd.1 (a, 0, 1) with ha0
  obtain ⟨p3, n3, m3, e3⟩ := lookupSym_spec a0.1 (b, 1, 1)
  set b1 := lookupSym a0.1 (b, 1, 1) with hb1
  obtain ⟨p4, n4, m4, e4⟩ := lookupSym_spec b1.1 (c, 1, 1)
  set c1 := lookupSym b1.1 (c, 1, 1) with hc1
  obtain ⟨p5, n5, m5, e5⟩ := lookupSym_spec c1.1 (d, 0, 1)
  set d0 := lookupSym c1.1 (d, 0, 1) with hd0
  have hr : reduceTile 0 (m, acts) (a, b, c, d) = (d0.1, [(a0.2, b1.2, cd.2), (0, cd.2, c1.2), (cd.2, 0, d0.2),
      (c1.2, d0.2, 0)].foldl putAct acts) := rfl
  have pm : m <+: d0.1 := p1.trans (p2.trans (p3.trans (p4.trans p5)))
  have q4 : c1.1 <+: d0.1 := p5
  have q3 : b1.1 <+: d0.1 := p4.trans q4
  have q2 : a0.1 <+: d0.1 := p3.trans q3
  have q1 : cd.1 <+: d0.1 := p2.trans q2
  have hdoll : colKey .doll ∈ d0.1 := pm.subset (hp.subset (by simp))
  have edoll : d0.1.idxOf (colKey .doll) = 0 := by
    rw [idxOf_prefix (hp.trans pm) (by simp)]; simp
  have f1 : cd.2 = d0.1.idxOf (c, d, symMax) := by rw [e1, idxOf_prefix q1 m1]
  have f2 : a0.2 = d0.1.idxOf (a, 0, 1) := by rw [e2, idxOf_prefix q2 m2]
  have f3 : b1.2 = d0.1.idxOf (b, 1, 1) := by rw [e3, idxOf_prefix q3 m3]
  have f4 : c1.2 = d0.1.idxOf (c, 1, 1) := by rw [e4, idxOf_prefix q4 m4]
  have g1 : ((c, d, symMax) : Sym) ∈ d0.1 := q1.subset m1
  have g2 : ((a, 0, 1) : Sym) ∈ d0.1 := q2.subset m2
  have g3 : ((b, 1, 1) : Sym) ∈ d0.1 := q3.subset m3
  have g4 : ((c, 1, 1) : Sym) ∈ d0.1 := q4.subset m4
  rw [hr]
  refine ⟨pm, n5 (n4 (n3 (n2 (n1 hn)))), ?_, fun x => ?_⟩
  · intro p hp
    simp only [tileCols, List.map_cons, List.map_nil, List.mem_cons, List.not_mem_nil, or_false] at hp
    rcases hp with rfl | rfl | rfl | rfl
    · exact ⟨g2, g3, g1⟩
    · exact ⟨hdoll, g1, g4⟩
    · exact ⟨g1, hdoll, m5⟩
    · exact ⟨g4, m5, hdoll⟩
  · simp only [mem_putActs]
    refine or_congr_right ?_
    have k := edoll
    simp only [colKey] at k
    simp only [tileCols, List.map_cons, List.map_nil, List.mem_cons, List.not_mem_nil, or_false, exists_eq_or_imp,
      exists_eq_left, encAct, colKeys, colKey, k, ← f1, ← f2, ← f3, ← f4, ← e5]

theorem reserveSyms_spec (W : List Wang) : [colKey .doll] <+: reserveSyms W ∧ (reserveSyms W).Nodup := by
  have key : ∀ (f : ℕ → Sym) (l : List ℕ) (m : List Sym), m.Nodup →
      m <+: l.foldl (fun m a => (lookupSym m (f a)).1) m ∧ (l.foldl (fun m a => (lookupSym m (f a)).1) m).Nodup := by
    intro f l
    induction l with
    | nil => exact fun m hn => ⟨List.prefix_rfl, hn⟩
    | cons a l ih =>
      intro m hn
      obtain ⟨h1, h2, -⟩ := lookupSym_spec m (f a)
      obtain ⟨h3, h4⟩ := ih _ (h2 hn)
      exact ⟨h1.trans h3, h4⟩
  have h0 : (lookupSym [] (symMax, symMax, symMax)).1 = [colKey .doll] := rfl
  simp only [reserveSyms, h0]
  obtain ⟨h1, h2⟩ := key (fun a => (a, 0, 1)) (colorSet (W.flatMap fun t => [t.1, t.2.2.2])) [colKey .doll] (by simp)
  obtain ⟨h3, h4⟩ := key (fun a => (a, 1, 1)) (colorSet (W.flatMap fun t => [t.2.1, t.2.2.1])) _ h2
  exact ⟨h1.trans h3, h4⟩

/-- No tile of the set has the south and east colours `UINT_MAX`. -/
def NoMax (W : List Wang) : Prop := ∀ t ∈ W, (t.2.2.1, t.2.2.2) ≠ (symMax, symMax)

theorem reduce_coded {W : List Wang} (hW : NoMax W) (hs : (reduceActs W).2 ≤ 256) :
    ∃ num sym, Coded (ColStep W) (reduceActs W).1 num sym ∧
      (∀ x y z, ColStep W x y z → num x < (reduceActs W).2 ∧ num y < (reduceActs W).2 ∧ num z < (reduceActs W).2) ∧
        num .doll = 0 := by
  obtain ⟨p0, n0⟩ := reserveSyms_spec W
  obtain ⟨h1, h2, h3, h4⟩ := fold_spec reduceTile_spec W (reserveSyms W) [] p0 n0
  have hs' : (W.foldl (reduceTile 0) (reserveSyms W, [])).1.length ≤ 256 := hs
  have em : (reduceActs W).1 = (W.foldl (reduceTile 0) (reserveSyms W, [])).2 := rfl
  have el : (reduceActs W).2 = (W.foldl (reduceTile 0) (reserveSyms W, [])).1.length := rfl
  rw [em, el]
  set m := (W.foldl (reduceTile 0) (reserveSyms W, [])).1 with hm
  set A := (W.foldl (reduceTile 0) (reserveSyms W, [])).2
  have hin : ∀ x y z, ColStep W x y z → InMap m (colKeys (x, y, z)) := by
    intro x y z hst
    obtain ⟨t, ht, hp⟩ := colStep_iff.1 hst
    exact h3 t ht _ (List.mem_map_of_mem hp)
  have hne : ∀ x y z, ColStep W x y z → x ≠ .cd symMax symMax ∧ y ≠ .cd symMax symMax ∧ z ≠ .cd symMax symMax := by
    intro x y z hst
    cases hst with
    | tl ht => simpa [Col.cd.injEq] using hW _ ht
    | bl ht => simpa [Col.cd.injEq] using hW _ ht
    | tr ht => simpa [Col.cd.injEq] using hW _ ht
    | br ht => simp
  refine ⟨fun x => m.idxOf (colKey x), fun i => keyCol (m.getD i (0, 0, 0)), ⟨fun t => ?_, fun x y z hst => ?_⟩,
    fun x y z hst => ?_, ?_⟩
  · rw [h4]
    constructor
    · rintro (h | ⟨t', ht', p, hp, rfl⟩)
      · simp at h
      · obtain ⟨⟨x, y, z⟩, hq, rfl⟩ := List.mem_map.1 hp
        exact ⟨x, y, z, colStep_iff.2 ⟨t', ht', hq⟩, encAct_small hs' (h3 t' ht' _ hp)⟩
    · rintro ⟨x, y, z, hst, rfl⟩
      obtain ⟨t', ht', hp⟩ := colStep_iff.1 hst
      exact .inr ⟨t', ht', _, List.mem_map_of_mem hp, (encAct_small hs' (hin x y z hst)).symm⟩
  · obtain ⟨i1, i2, i3⟩ := hin x y z hst
    obtain ⟨k1, k2, k3⟩ := hne x y z hst
    simp only [colKeys] at i1 i2 i3
    simp only [getD_idxOf i1, getD_idxOf i2, getD_idxOf i3, keyCol_colKey k1, keyCol_colKey k2, keyCol_colKey k3,
      and_self]
  · obtain ⟨i1, i2, i3⟩ := hin x y z hst
    exact ⟨List.idxOf_lt_length_iff.2 i1, List.idxOf_lt_length_iff.2 i2, List.idxOf_lt_length_iff.2 i3⟩
  · show m.idxOf (colKey .doll) = 0
    rw [idxOf_prefix (p0.trans h1) (by simp)]; simp

/-! ### `ReduceToCommutativeTiles` -/

/-- The key of a symbol. -/
def cmKey : Cm → Sym
  | .z00 => (0, 0, 0)
  | .z11 => (1, 0, 0)
  | .hash => (3, 0, 0)
  | .doll => (2, 0, 0)
  | .cd c d => (c, d, symMax)
  | .ri a => (a, 0, 1)
  | .rri a => (a, 0, 2)
  | .up b => (b, 1, 1)
  | .uup b => (b, 1, 2)

/-- The symbol of a key. -/
def keyCm (s : Sym) : Cm :=
  if s.2.2 = symMax then .cd s.1 s.2.1
  else if s.2.2 = 0 then if s.1 = 0 then .z00 else if s.1 = 1 then .z11 else if s.1 = 3 then .hash else .doll
  else if s.2.2 = 1 then if s.2.1 = 0 then .ri s.1 else .up s.1
  else if s.2.1 = 0 then .rri s.1 else .uup s.1

theorem keyCm_cmKey (x : Cm) : keyCm (cmKey x) = x := by
  cases x <;> simp [cmKey, keyCm, symMax]

/-- The tiles of the picture. -/
def tileCms (t : Wang) : List (Cm × Cm × Cm) :=
  [(.ri t.1, .up t.2.1, .cd t.2.2.1 t.2.2.2), (.cd t.2.2.1 t.2.2.2, .z00, .rri t.2.2.2),
    (.rri t.2.2.2, .doll, .ri t.2.2.2), (.z11, .cd t.2.2.1 t.2.2.2, .uup t.2.2.1),
    (.uup t.2.2.1, .rri t.2.2.2, .hash), (.hash, .ri t.2.2.2, .z11), (.doll, .uup t.2.2.1, .up t.2.2.1),
    (.up t.2.2.1, .hash, .z00), (.z00, .z11, .doll)]

theorem cmBase_iff {W : List Wang} {x y z : Cm} : CmBase W x y z ↔ ∃ t ∈ W, (x, y, z) ∈ tileCms t := by
  constructor
  · intro h
    cases h with
    | t0 hm => exact ⟨_, hm, by simp [tileCms]⟩
    | t1 hm => exact ⟨_, hm, by simp [tileCms]⟩
    | t2 hm => exact ⟨_, hm, by simp [tileCms]⟩
    | m0 hm => exact ⟨_, hm, by simp [tileCms]⟩
    | m1 hm => exact ⟨_, hm, by simp [tileCms]⟩
    | m2 hm => exact ⟨_, hm, by simp [tileCms]⟩
    | b0 hm => exact ⟨_, hm, by simp [tileCms]⟩
    | b1 hm => exact ⟨_, hm, by simp [tileCms]⟩
    | b2 hm => exact ⟨_, hm, by simp [tileCms]⟩
  · rintro ⟨⟨a, b, c, d⟩, hm, ht⟩
    simp only [tileCms, List.mem_cons, Prod.mk.injEq, List.not_mem_nil, or_false] at ht
    rcases ht with ⟨rfl, rfl, rfl⟩ | ⟨rfl, rfl, rfl⟩ | ⟨rfl, rfl, rfl⟩ | ⟨rfl, rfl, rfl⟩ | ⟨rfl, rfl, rfl⟩ |
      ⟨rfl, rfl, rfl⟩ | ⟨rfl, rfl, rfl⟩ | ⟨rfl, rfl, rfl⟩ | ⟨rfl, rfl, rfl⟩
    · exact .t0 hm
    · exact .t1 hm
    · exact .t2 hm
    · exact .m0 hm
    · exact .m1 hm
    · exact .m2 hm
    · exact .b0 hm
    · exact .b1 hm
    · exact .b2 hm

/-- A tile and its reflection. -/
def bothCms (t : Wang) : List (Cm × Cm × Cm) := (tileCms t).flatMap fun p => [p, (p.2.1, p.1, p.2.2)]

theorem cmStep_iff {W : List Wang} {x y z : Cm} : CmStep W x y z ↔ ∃ t ∈ W, (x, y, z) ∈ bothCms t := by
  unfold CmStep bothCms
  rw [cmBase_iff, cmBase_iff]
  simp only [List.mem_flatMap, List.mem_cons, List.not_mem_nil, or_false, Prod.exists, Prod.mk.injEq]
  constructor
  · rintro (⟨a, b, c, d, hm, ht⟩ | ⟨a, b, c, d, hm, ht⟩)
    · exact ⟨a, b, c, d, hm, x, y, z, ht, .inl ⟨rfl, rfl, rfl⟩⟩
    · exact ⟨a, b, c, d, hm, y, x, z, ht, .inr ⟨rfl, rfl, rfl⟩⟩
  · rintro ⟨a, b, c, d, hm, x', y', z', ht, ⟨rfl, rfl, rfl⟩ | ⟨rfl, rfl, rfl⟩⟩
    · exact .inl ⟨a, b, c, d, hm, ht⟩
    · exact .inr ⟨a, b, c, d, hm, ht⟩

/-- A triple of keys. -/
def cmKeys (p : Cm × Cm × Cm) : Sym × Sym × Sym := (cmKey p.1, cmKey p.2.1, cmKey p.2.2)

theorem specialSyms_eq : specialSyms = [(0, 0, 0), (1, 0, 0), (3, 0, 0), (2, 0, 0)] := by decide

theorem commuteTile_spec : TileSpec specialSyms commuteTile fun t => (bothCms t).map cmKeys := by
  rintro m acts ⟨a, b, c, d⟩ hp hn
  obtain ⟨p1, n1, m1, e1⟩ := lookupSym_spec m (c, d, symMax)
  set cd := lookupSym m (c, d, symMax) with hcd
  obtain ⟨p2, n2, m2, e2⟩ := lookupSym_spec cd.1 (a, 0, 1)
  set a0 := lookupSym cd.1 (a, 0, 1) with ha0
  obtain ⟨p3, n3, m3, e3⟩ := lookupSym_spec a0.1 (d, 0, 1)
  set d0 := lookupSym a0.1 (d, 0, 1) with hd0
  obtain ⟨p4, n4, m4, e4⟩ := lookupSym_spec d0.1 (d, 0, 2)
  set d00 := lookupSym d0.1 (d, 0, 2) with hd00
  obtain ⟨p5, n5, m5, e5⟩ := lookupSym_spec d00.1 (b, 1, 1)
  set b1 := lookupSym d00.1 (b, 1, 1) with hb1
  obtain ⟨p6, n6, m6, e6⟩ := lookupSym_spec b1.1 (c, 1, 1)
  set c1 := lookupSym b1.1 (c, 1, 1) with hc1
  obtain ⟨p7, n7, m7, e7⟩ := lookupSym_spec c1.1 (c, 1, 2)
  set c11 := lookupSym c1.1 (c, 1, 2) with hc11
  have hr : commuteTile (m, acts) (a, b, c, d) = (c11.1, (reductionRow a0.2 b1.2 cd.2 0 d00.2 3 d0.2 ++
      reductionRow 1 cd.2 c11.2 d00.2 2 d0.2 1 ++ reductionRow 3 c11.2 c1.2 2 0 1 3).foldl putAct acts) := rfl
  have q6 : c1.1 <+: c11.1 := p7
  have q5 : b1.1 <+: c11.1 := p6.trans q6
  have q4 : d00.1 <+: c11.1 := p5.trans q5
  have q3 : d0.1 <+: c11.1 := p4.trans q4
  have q2 : a0.1 <+: c11.1 := p3.trans q3
  have q1 : cd.1 <+: c11.1 := p2.trans q2
  have pm : m <+: c11.1 := p1.trans q1
  have hsp : specialSyms <+: c11.1 := hp.trans pm
  have s0 : ((0, 0, 0) : Sym) ∈ specialSyms := by decide
  have s1 : ((1, 0, 0) : Sym) ∈ specialSyms := by decide
  have s2 : ((2, 0, 0) : Sym) ∈ specialSyms := by decide
  have s3 : ((3, 0, 0) : Sym) ∈ specialSyms := by decide
  have k0 : c11.1.idxOf (0, 0, 0) = 0 := by rw [idxOf_prefix hsp s0]; decide
  have k1 : c11.1.idxOf (1, 0, 0) = 1 := by rw [idxOf_prefix hsp s1]; decide
  have k2 : c11.1.idxOf (3, 0, 0) = 2 := by rw [idxOf_prefix hsp s3]; decide
  have k3 : c11.1.idxOf (2, 0, 0) = 3 := by rw [idxOf_prefix hsp s2]; decide
  have f1 : cd.2 = c11.1.idxOf (c, d, symMax) := by rw [e1, idxOf_prefix q1 m1]
  have f2 : a0.2 = c11.1.idxOf (a, 0, 1) := by rw [e2, idxOf_prefix q2 m2]
  have f3 : d0.2 = c11.1.idxOf (d, 0, 1) := by rw [e3, idxOf_prefix q3 m3]
  have f4 : d00.2 = c11.1.idxOf (d, 0, 2) := by rw [e4, idxOf_prefix q4 m4]
  have f5 : b1.2 = c11.1.idxOf (b, 1, 1) := by rw [e5, idxOf_prefix q5 m5]
  have f6 : c1.2 = c11.1.idxOf (c, 1, 1) := by rw [e6, idxOf_prefix q6 m6]
  have g0 := hsp.subset s0
  have g1 := hsp.subset s1
  have g2 := hsp.subset s2
  have g3 := hsp.subset s3
  have l1 := q1.subset m1
  have l2 := q2.subset m2
  have l3 := q3.subset m3
  have l4 := q4.subset m4
  have l5 := q5.subset m5
  have l6 := q6.subset m6
  rw [hr]
  clear_value cd a0 d0 d00 b1 c1 c11
  have hl : (bothCms (a, b, c, d)).map cmKeys = [((a, 0, 1), (b, 1, 1), (c, d, symMax)), ((b, 1, 1), (a, 0, 1), (c, d, symMax)),
      ((c, d, symMax), (0, 0, 0), (d, 0, 2)), ((0, 0, 0), (c, d, symMax), (d, 0, 2)),
      ((d, 0, 2), (2, 0, 0), (d, 0, 1)), ((2, 0, 0), (d, 0, 2), (d, 0, 1)),
      ((1, 0, 0), (c, d, symMax), (c, 1, 2)), ((c, d, symMax), (1, 0, 0), (c, 1, 2)),
      ((c, 1, 2), (d, 0, 2), (3, 0, 0)), ((d, 0, 2), (c, 1, 2), (3, 0, 0)),
      ((3, 0, 0), (d, 0, 1), (1, 0, 0)), ((d, 0, 1), (3, 0, 0), (1, 0, 0)),
      ((2, 0, 0), (c, 1, 2), (c, 1, 1)), ((c, 1, 2), (2, 0, 0), (c, 1, 1)),
      ((c, 1, 1), (3, 0, 0), (0, 0, 0)), ((3, 0, 0), (c, 1, 1), (0, 0, 0)),
      ((0, 0, 0), (1, 0, 0), (2, 0, 0)), ((1, 0, 0), (0, 0, 0), (2, 0, 0))] := rfl
  have hm : (reductionRow a0.2 b1.2 cd.2 0 d00.2 3 d0.2 ++ reductionRow 1 cd.2 c11.2 d00.2 2 d0.2 1 ++
      reductionRow 3 c11.2 c1.2 2 0 1 3).map (fun t => ((toByte t.1, toByte t.2.1, toByte t.2.2) : UniAct)) =
      ((bothCms (a, b, c, d)).map cmKeys).map (encAct c11.1) := by
    rw [hl]
    simp only [reductionRow, List.cons_append, List.nil_append, List.map_cons, List.map_nil, encAct, k0, k1, k2, k3, ← f1,
      ← f2, ← f3, ← f4, ← f5, ← f6, ← e7]
  refine ⟨pm, n7 (n6 (n5 (n4 (n3 (n2 (n1 hn)))))), ?_, fun x => ?_⟩
  · show ∀ p ∈ (bothCms (a, b, c, d)).map cmKeys, InMap c11.1 p
    rw [hl]
    simp only [List.forall_mem_cons, InMap, g0, g1, g2, g3, l1, l2, l3, l4, l5, l6, m7, and_self, true_and]
    simp
  · have hx := mem_putActs_map (acts := acts) (x := x) hm
    revert hx
    dsimp only
    generalize List.foldl putAct acts _ = F
    exact id

theorem commute_coded {W : List Wang} (hs : (commuteActs W).2 ≤ 256) :
    ∃ num sym, Coded (CmStep W) (commuteActs W).1 num sym ∧
      (∀ x y z, CmStep W x y z → num x < (commuteActs W).2 ∧ num y < (commuteActs W).2 ∧ num z < (commuteActs W).2) ∧
        num .z00 = 0 := by
  obtain ⟨h1, h2, h3, h4⟩ := fold_spec commuteTile_spec W specialSyms [] List.prefix_rfl (by decide)
  have hs' : (W.foldl commuteTile (specialSyms, [])).1.length ≤ 256 := hs
  have em : (commuteActs W).1 = (W.foldl commuteTile (specialSyms, [])).2 := rfl
  have el : (commuteActs W).2 = (W.foldl commuteTile (specialSyms, [])).1.length := rfl
  rw [em, el]
  set m := (W.foldl commuteTile (specialSyms, [])).1 with hm
  set A := (W.foldl commuteTile (specialSyms, [])).2
  have hin : ∀ x y z, CmStep W x y z → InMap m (cmKeys (x, y, z)) := by
    intro x y z hst
    obtain ⟨t, ht, hp⟩ := cmStep_iff.1 hst
    exact h3 t ht _ (List.mem_map_of_mem hp)
  refine ⟨fun x => m.idxOf (cmKey x), fun i => keyCm (m.getD i (0, 0, 0)), ⟨fun t => ?_, fun x y z hst => ?_⟩,
    fun x y z hst => ?_, ?_⟩
  · rw [h4]
    constructor
    · rintro (h | ⟨t', ht', p, hp, rfl⟩)
      · simp at h
      · obtain ⟨⟨x, y, z⟩, hq, rfl⟩ := List.mem_map.1 hp
        exact ⟨x, y, z, cmStep_iff.2 ⟨t', ht', hq⟩, encAct_small hs' (h3 t' ht' _ hp)⟩
    · rintro ⟨x, y, z, hst, rfl⟩
      obtain ⟨t', ht', hp⟩ := cmStep_iff.1 hst
      exact .inr ⟨t', ht', _, List.mem_map_of_mem hp, (encAct_small hs' (hin x y z hst)).symm⟩
  · obtain ⟨i1, i2, i3⟩ := hin x y z hst
    simp only [cmKeys] at i1 i2 i3
    simp only [getD_idxOf i1, getD_idxOf i2, getD_idxOf i3, keyCm_cmKey, and_self]
  · obtain ⟨i1, i2, i3⟩ := hin x y z hst
    exact ⟨List.idxOf_lt_length_iff.2 i1, List.idxOf_lt_length_iff.2 i2, List.idxOf_lt_length_iff.2 i3⟩
  · show m.idxOf (cmKey .z00) = 0
    rw [idxOf_prefix h1 (by decide)]; decide

end Verif.Proofs
