import Verif.Proofs.Index
import Mathlib.Logic.Equiv.Basic
import Mathlib.Algebra.Group.End
import Mathlib.Data.List.Sort
import Mathlib.Data.List.Nodup
import Mathlib.Logic.Relation

/-! Exchanges of values of symmetric links and the representative loop. -/

namespace Verif.Proofs
open Verif.Model

/-- Several exchanges one after the other. -/
def swaps (P : List (ℕ × ℕ)) (l : List ℕ) : Option (List ℕ) :=
  P.foldlM (fun l p => swapAt l p.1 p.2) l

/-- The permutation of positions made by several exchanges. -/
def permOf (P : List (ℕ × ℕ)) : Equiv.Perm ℕ := (P.map fun p => Equiv.swap p.1 p.2).prod

/-- All positions mentioned. -/
def entries (P : List (ℕ × ℕ)) : List ℕ := P.flatMap fun p => [p.1, p.2]

theorem swapAt_spec {l : List ℕ} {i j : ℕ} (hi : i < l.length) (hj : j < l.length) :
    ∃ l', swapAt l i j = some l' ∧ l'.length = l.length ∧
      ∀ k, l'.getD k 0 = l.getD (Equiv.swap i j k) 0 := by
  refine ⟨(l.set i l[j]).set j l[i], by simp [swapAt, hi, hj], by simp, fun k => ?_⟩
  rw [Equiv.swap_apply_def]
  simp only [List.getD_eq_getElem?_getD, List.getElem?_set, List.length_set]
  by_cases h2 : k = j
  · subst h2
    by_cases h1 : k = i
    · subst h1; simp [hi]
    · simp [hi, hj, h1]
  · by_cases h1 : k = i
    · subst h1; simp [hi, hj, Ne.symm h2]
    · simp [h1, h2, Ne.symm h1, Ne.symm h2]

theorem swaps_spec {P : List (ℕ × ℕ)} {l : List ℕ} (h : ∀ k ∈ entries P, k < l.length) :
    ∃ l', swaps P l = some l' ∧ l'.length = l.length ∧
      ∀ k, l'.getD k 0 = l.getD (permOf P k) 0 := by
  induction P generalizing l with
  | nil => exact ⟨l, rfl, rfl, fun k => by simp [permOf]⟩
  | cons p P ih =>
    obtain ⟨l1, e1, n1, g1⟩ := swapAt_spec (l := l) (i := p.1) (j := p.2)
      (h _ (by simp [entries])) (h _ (by simp [entries]))
    obtain ⟨l2, e2, n2, g2⟩ := ih (l := l1) (fun k hk => by
      rw [n1]; exact h k (by simp [entries] at hk ⊢; exact Or.inr (Or.inr hk)))
    refine ⟨l2, ?_, by omega, fun k => ?_⟩
    · unfold swaps at e2 ⊢
      rw [List.foldlM_cons, e1]; exact e2
    · rw [g2, g1]; simp [permOf]

theorem entries_mem {P : List (ℕ × ℕ)} {k : ℕ} :
    k ∈ entries P ↔ ∃ p ∈ P, k = p.1 ∨ k = p.2 := by
  simp [entries]

theorem permOf_fix {P : List (ℕ × ℕ)} {k : ℕ} (h : k ∉ entries P) : permOf P k = k := by
  induction P with
  | nil => simp [permOf]
  | cons p P ih =>
    have h1 : k ∉ entries P := fun h' => h (by simp [entries] at h' ⊢; exact Or.inr (Or.inr h'))
    have h2 : k ≠ p.1 := fun h' => h (by simp [entries, h'])
    have h3 : k ≠ p.2 := fun h' => h (by simp [entries, h'])
    have : permOf (p :: P) k = Equiv.swap p.1 p.2 (permOf P k) := by simp [permOf]
    rw [this, ih h1, Equiv.swap_apply_of_ne_of_ne h2 h3]

theorem permOf_pair {P : List (ℕ × ℕ)} (hn : (entries P).Nodup) {p : ℕ × ℕ} (hp : p ∈ P) :
    permOf P p.1 = p.2 ∧ permOf P p.2 = p.1 := by
  induction P with
  | nil => simp at hp
  | cons q P ih =>
    have e : ∀ k, permOf (q :: P) k = Equiv.swap q.1 q.2 (permOf P k) := fun k => by simp [permOf]
    have hn' : (q.1 :: q.2 :: entries P).Nodup := by simpa [entries] using hn
    have h1 := (List.nodup_cons.1 hn').1
    have h2 := (List.nodup_cons.1 (List.nodup_cons.1 hn').2).1
    have h3 := (List.nodup_cons.1 (List.nodup_cons.1 hn').2).2
    rcases List.mem_cons.1 hp with rfl | hp
    · rw [e, e, permOf_fix h2, permOf_fix (fun h => h1 (by simp [h]))]
      simp
    · obtain ⟨i1, i2⟩ := ih h3 hp
      have m1 : p.1 ∈ entries P := entries_mem.2 ⟨p, hp, Or.inl rfl⟩
      have m2 : p.2 ∈ entries P := entries_mem.2 ⟨p, hp, Or.inr rfl⟩
      have n1 : ∀ k ∈ entries P, k ≠ q.1 ∧ k ≠ q.2 := fun k hk =>
        ⟨fun h => h1 (by rw [← h]; simp [hk]), fun h => h2 (by rw [← h]; exact hk)⟩
      rw [e, e, i1, i2, Equiv.swap_apply_of_ne_of_ne (n1 _ m2).1 (n1 _ m2).2,
        Equiv.swap_apply_of_ne_of_ne (n1 _ m1).1 (n1 _ m1).2]
      exact ⟨rfl, rfl⟩

theorem permOf_perm {P Q : List (ℕ × ℕ)} (hn : (entries P).Nodup) (h : P.Perm Q) :
    permOf P = permOf Q := by
  have hn' : (entries Q).Nodup := (h.flatMap_right _).nodup_iff.1 hn
  ext k
  by_cases hk : k ∈ entries P
  · obtain ⟨p, hp, rfl | rfl⟩ := entries_mem.1 hk
    · rw [(permOf_pair hn hp).1, (permOf_pair hn' (h.mem_iff.1 hp)).1]
    · rw [(permOf_pair hn hp).2, (permOf_pair hn' (h.mem_iff.1 hp)).2]
  · rw [permOf_fix hk, permOf_fix (fun h' => hk ((h.flatMap_right _).mem_iff.2 h'))]

theorem getD_lt_of {l l' : List ℕ} (hl : l.length = l'.length) {a : ℕ} (ha : a < l.length)
    (he : ∀ k < a, l.getD k 0 = l'.getD k 0) (hlt : l.getD a 0 < l'.getD a 0) : l < l' := by
  rw [List.lt_iff_exists]
  right
  refine ⟨a, ha, by omega, fun j hj => ?_, ?_⟩
  · have := he j hj
    simpa [List.getD_eq_getElem?_getD, show j < l.length by omega,
      show j < l'.length by omega] using this
  · simpa [List.getD_eq_getElem?_getD, ha, show a < l'.length by omega] using hlt

/-- Comparison of a table with the table after exchanges, in terms of the exchanged values. -/
theorem lex_swap {P : List (ℕ × ℕ)} (hs : P.Pairwise fun p q => p.1 < q.1)
    (hlt : ∀ p ∈ P, p.1 < p.2) (hn : (entries P).Nodup) {l l' : List ℕ}
    (hl : ∀ k ∈ entries P, k < l.length) (hl' : l'.length = l.length)
    (h : ∀ k, l'.getD k 0 = l.getD (permOf P k) 0) :
    l' < l ↔ (P.map fun p => l.getD p.2 0) < (P.map fun p => l.getD p.1 0) := by
  -- positions before the first differing pair agree
  have before : ∀ i (hi : i < P.length), (∀ i' (hi' : i' < i),
      l.getD (P[i']'(by omega)).1 0 = l.getD (P[i']'(by omega)).2 0) →
      ∀ k < P[i].1, l'.getD k 0 = l.getD k 0 := by
    intro i hi heq k hk
    rw [h]
    by_cases hke : k ∈ entries P
    · obtain ⟨p, hp, hpk⟩ := entries_mem.1 hke
      obtain ⟨i', hi', rfl⟩ := List.mem_iff_getElem.1 hp
      have hlt' := hlt _ hp
      have hii : i' < i := by
        rcases lt_trichotomy i' i with h1 | h1 | h1
        · exact h1
        · subst h1; rcases hpk with h2 | h2 <;> omega
        · have := List.pairwise_iff_getElem.1 hs i i' hi hi' h1
          rcases hpk with h2 | h2 <;> omega
      have := heq i' hii
      rcases hpk with rfl | rfl
      · rw [(permOf_pair hn hp).1]; exact this.symm
      · rw [(permOf_pair hn hp).2]; exact this
    · rw [permOf_fix hke]
  rcases lt_trichotomy (P.map fun p => l.getD p.2 0) (P.map fun p => l.getD p.1 0) with c | c | c
  · refine iff_of_true ?_ c
    rcases List.lt_iff_exists.1 c with ⟨-, c⟩ | ⟨i, h1, h2, h3, h4⟩
    · simp at c
    · have hi : i < P.length := by simpa using h1
      have hb := before i hi (fun i' hi' => by
        have := h3 i' hi'
        simpa using this.symm)
      refine getD_lt_of hl' ?_ hb ?_
      · rw [hl']; exact hl _ (entries_mem.2 ⟨_, List.getElem_mem hi, Or.inl rfl⟩)
      · rw [h, (permOf_pair hn (List.getElem_mem hi)).1]
        simpa using h4
  · have : l' = l := by
      refine List.ext_getElem hl' fun k k1 k2 => ?_
      have e : l'.getD k 0 = l.getD k 0 := by
        rw [h]
        by_cases hke : k ∈ entries P
        · obtain ⟨p, hp, hpk⟩ := entries_mem.1 hke
          have := List.map_inj_left.1 c p hp
          rcases hpk with rfl | rfl
          · rw [(permOf_pair hn hp).1]; exact this
          · rw [(permOf_pair hn hp).2]; exact this.symm
        · rw [permOf_fix hke]
      simpa [List.getD_eq_getElem?_getD, k1, k2] using e
    rw [this, c]
    exact iff_of_false (lt_irrefl _) (lt_irrefl _)
  · refine iff_of_false (fun h' => ?_) (lt_asymm c)
    refine lt_asymm h' ?_
    rcases List.lt_iff_exists.1 c with ⟨-, c⟩ | ⟨i, h1, h2, h3, h4⟩
    · simp at c
    · have hi : i < P.length := by simpa using h1
      have hb := before i hi (fun i' hi' => by
        have := h3 i' hi'
        simpa using this)
      refine getD_lt_of hl'.symm ?_ (fun k hk => (hb k hk).symm) ?_
      · exact hl _ (entries_mem.2 ⟨_, List.getElem_mem hi, Or.inl rfl⟩)
      · rw [h, (permOf_pair hn (List.getElem_mem hi)).1]
        simpa using h4

/-! ### Positions of links -/

/-- Access index of variable `v` at link `j`. -/
def obD (s : LinkSymm) (v j : ℕ) : ℕ := s.t.getD (v * s.nlinks + j) 0

/-- Written access. -/
def Wr (pc : PcSymm) (r : ℕ) : Prop := r ∈ pc.wmap

instance (pc : PcSymm) (r : ℕ) : Decidable (Wr pc r) := inferInstanceAs (Decidable (_ ∈ _))

/-- Position of the assignment to a written access. -/
def wpos (pc : PcSymm) (r : ℕ) : ℕ := pc.access.length + pc.wmap.idxOf r

/-- A symmetry is well formed: full table of distinct accesses of which each row has one kind. -/
structure LinkWf (pc : PcSymm) (s : LinkSymm) : Prop where
  pos : 0 < s.nlinks
  len : s.t.length = s.nvbls * s.nlinks
  nodup : s.t.Nodup
  same : ∀ v < s.nvbls, ∀ j < s.nlinks, ∃ a : Access, pc.access[obD s v j]? = some a ∧
    pc.access[obD s v 0]? = some a

/-- The exchanged positions of two adjacent links in the order of the code. -/
def linkPairs (pc : PcSymm) (s : LinkSymm) (j : ℕ) : List (ℕ × ℕ) :=
  (List.range s.nvbls).flatMap fun v =>
    (obD s v j, obD s v (j + 1)) ::
      if Wr pc (obD s v j) then [(wpos pc (obD s v j), wpos pc (obD s v (j + 1)))] else []

theorem wmap_nodup (pc : PcSymm) : pc.wmap.Nodup := List.nodup_range.filter _

theorem wmap_sorted (pc : PcSymm) : pc.wmap.Pairwise (· < ·) := List.pairwise_lt_range.filter _

theorem mem_wmap {pc : PcSymm} {r : ℕ} {a : Access} (h : pc.access[r]? = some a) :
    r ∈ pc.wmap ↔ a.writeCk = true := by
  have hr : r < pc.access.length := by
    by_contra hc
    rw [List.getElem?_eq_none (by omega)] at h
    simp at h
  rw [PcSymm.wmap, List.mem_filter, h]
  simp [hr]

theorem widxLoop_not {r off i : ℕ} {wm : List ℕ} {acc : ℕ} (h : r ∉ wm) :
    widxLoop r off i wm acc = acc := by
  induction wm generalizing i acc with
  | nil => rfl
  | cons x wm ih =>
    simp only [List.mem_cons, not_or] at h
    rw [widxLoop, ih h.2, if_neg (Ne.symm h.1)]

theorem widxLoop_mem {r off i : ℕ} {wm : List ℕ} {acc : ℕ} (hn : wm.Nodup) (h : r ∈ wm) :
    widxLoop r off i wm acc = off + i + wm.idxOf r := by
  induction wm generalizing i acc with
  | nil => simp at h
  | cons x wm ih =>
    rw [widxLoop]
    by_cases hx : x = r
    · subst hx
      rw [widxLoop_not (List.nodup_cons.1 hn).1]
      simp
    · have hm : r ∈ wm := by
        rcases List.mem_cons.1 h with h | h
        · exact absurd h.symm hx
        · exact h
      rw [ih (List.nodup_cons.1 hn).2 hm, List.idxOf_cons_ne _ hx]
      omega

theorem wpos_eq {pc : PcSymm} {r : ℕ} (h : r ∈ pc.wmap) :
    widxLoop r pc.access.length 0 pc.wmap 0 = wpos pc r := by
  rw [widxLoop_mem (wmap_nodup pc) h]; rfl

theorem wpos_lt {pc : PcSymm} {r : ℕ} (h : r ∈ pc.wmap) :
    wpos pc r < pc.access.length + pc.wmap.length :=
  Nat.add_lt_add_left (List.idxOf_lt_length_of_mem h) _

theorem wpos_mono {pc : PcSymm} {a b : ℕ} (ha : a ∈ pc.wmap) (hb : b ∈ pc.wmap) (h : a < b) :
    wpos pc a < wpos pc b := by
  have h1 := List.idxOf_lt_length_of_mem ha
  have h2 := List.idxOf_lt_length_of_mem hb
  have e1 : pc.wmap[pc.wmap.idxOf a] = a := List.getElem_idxOf h1
  have e2 : pc.wmap[pc.wmap.idxOf b] = b := List.getElem_idxOf h2
  rcases lt_trichotomy (pc.wmap.idxOf a) (pc.wmap.idxOf b) with c | c | c
  · exact Nat.add_lt_add_left c _
  · have : a = b := by rw [← e1, ← e2]; simp only [c]
    omega
  · have := List.pairwise_iff_getElem.1 (wmap_sorted pc) _ _ h2 h1 c
    omega

theorem wpos_inj {pc : PcSymm} {a b : ℕ} (ha : a ∈ pc.wmap) (hb : b ∈ pc.wmap)
    (h : wpos pc a = wpos pc b) : a = b := by
  rcases lt_trichotomy a b with c | c | c
  · have := wpos_mono ha hb c; omega
  · exact c
  · have := wpos_mono hb ha c; omega

theorem swapVals_eq {pc : PcSymm} {a b : ℕ} {x : Access} (ha : pc.access[a]? = some x)
    (hb : pc.access[b]? = some x) (vals : List ℕ) :
    swapVals pc a b vals = swaps ((a, b) :: if Wr pc a then [(wpos pc a, wpos pc b)] else []) vals := by
  have hr : a < pc.access.length := by
    by_contra hc
    rw [List.getElem?_eq_none (by omega)] at ha
    simp at ha
  unfold swapVals swaps
  rw [List.foldlM_cons]
  congr 1
  funext l
  rw [ha, hb]
  simp only [Option.bind_some, Bool.or_self, Bool.and_self]
  by_cases hw : x.writeCk = true
  · have ma := (mem_wmap ha).2 hw
    have mb := (mem_wmap hb).2 hw
    have hW : Wr pc a := ma
    rw [wpos_eq ma, wpos_eq mb]
    simp only [hw, if_true, hW, List.foldlM_cons, List.foldlM_nil]
    rw [if_pos]
    · simp
    · have : wpos pc a ≠ 0 := by unfold wpos; omega
      have : wpos pc b ≠ 0 := by unfold wpos; omega
      simp [*]
  · have hW : ¬ Wr pc a := fun h => hw ((mem_wmap ha).1 h)
    simp [hw, hW]

section
variable {pc : PcSymm} {s : LinkSymm}

theorem LinkWf.ob (h : LinkWf pc s) {v j : ℕ} (hv : v < s.nvbls) (hj : j < s.nlinks) :
    v * s.nlinks + j < s.t.length ∧ s.ob v j = some (obD s v j) := by
  have : v * s.nlinks + j < s.t.length := by
    rw [h.len]
    calc v * s.nlinks + j < v * s.nlinks + s.nlinks := by omega
      _ = (v + 1) * s.nlinks := by ring
      _ ≤ _ := Nat.mul_le_mul_right _ hv
  refine ⟨this, ?_⟩
  simp [LinkSymm.ob, obD, List.getD_eq_getElem?_getD, this]

theorem LinkWf.ob_inj (h : LinkWf pc s) {v j v' j' : ℕ} (hv : v < s.nvbls) (hj : j < s.nlinks)
    (hv' : v' < s.nvbls) (hj' : j' < s.nlinks) (he : obD s v j = obD s v' j') :
    v = v' ∧ j = j' := by
  have h1 := (h.ob hv hj).1
  have h2 := (h.ob hv' hj').1
  have e : s.t[v * s.nlinks + j] = s.t[v' * s.nlinks + j'] := by
    simpa [obD, List.getD_eq_getElem?_getD, h1, h2] using he
  have e := (h.nodup.getElem_inj_iff).1 e
  have d : ∀ v j, j < s.nlinks → (v * s.nlinks + j) / s.nlinks = v := fun v j hj => by
    rw [Nat.add_comm, Nat.add_mul_div_right _ _ h.pos, Nat.div_eq_of_lt hj, Nat.zero_add]
  have hvv : v = v' := by rw [← d v j hj, e, d v' j' hj']
  subst hvv
  exact ⟨rfl, by omega⟩

theorem LinkWf.acc (h : LinkWf pc s) {v j j' : ℕ} (hv : v < s.nvbls) (hj : j < s.nlinks)
    (hj' : j' < s.nlinks) : ∃ a : Access, pc.access[obD s v j]? = some a ∧
      pc.access[obD s v j']? = some a := by
  obtain ⟨a, h1, h2⟩ := h.same v hv j hj
  obtain ⟨b, h3, h4⟩ := h.same v hv j' hj'
  rw [h2, Option.some.injEq] at h4
  exact ⟨a, h1, by rw [h3, h4]⟩

theorem LinkWf.lt (h : LinkWf pc s) {v j : ℕ} (hv : v < s.nvbls) (hj : j < s.nlinks) :
    obD s v j < pc.access.length := by
  obtain ⟨a, h1, -⟩ := h.same v hv j hj
  by_contra hc
  rw [List.getElem?_eq_none (by omega)] at h1
  simp at h1

theorem LinkWf.wr (h : LinkWf pc s) {v j j' : ℕ} (hv : v < s.nvbls) (hj : j < s.nlinks)
    (hj' : j' < s.nlinks) : Wr pc (obD s v j) ↔ Wr pc (obD s v j') := by
  obtain ⟨a, h1, h2⟩ := h.acc hv hj hj'
  unfold Wr
  rw [mem_wmap h1, mem_wmap h2]

theorem swapLinks_eq (h : LinkWf pc s) {j : ℕ} (hj : j + 1 < s.nlinks) (vals : List ℕ) :
    swapLinks pc s j vals = swaps (linkPairs pc s j) vals := by
  unfold swapLinks linkPairs
  have key : ∀ (L : List ℕ), (∀ v ∈ L, v < s.nvbls) → ∀ vals,
      L.foldlM (fun vals v => (s.ob v j).bind fun a => (s.ob v (j + 1)).bind fun b =>
        swapVals pc a b vals) vals =
      swaps (L.flatMap fun v => (obD s v j, obD s v (j + 1)) ::
        if Wr pc (obD s v j) then [(wpos pc (obD s v j), wpos pc (obD s v (j + 1)))] else [])
        vals := by
    intro L
    induction L with
    | nil => intro _ vals; rfl
    | cons v L ih =>
      intro hL vals
      have hv := hL v (by simp)
      obtain ⟨a, h1, h2⟩ := h.acc hv (j := j) (j' := j + 1) (by omega) hj
      rw [List.foldlM_cons, (h.ob hv (by omega)).2, (h.ob hv hj).2]
      simp only [Option.bind_some, List.flatMap_cons]
      rw [swapVals_eq h1 h2]
      unfold swaps
      rw [List.foldlM_append]
      congr 1
      funext l
      exact ih (fun v hv => hL v (by simp [hv])) l
  exact key _ (fun v hv => List.mem_range.1 hv) vals

/-- Positions of a row: the guards of a variable, or the assignments to it. -/
def rows (pc : PcSymm) (s : LinkSymm) : List (ℕ → ℕ) :=
  ((List.range s.nvbls).map fun v j => obD s v j) ++
    ((List.range s.nvbls).filter fun v => Wr pc (obD s v 0)).map fun v j => wpos pc (obD s v j)

/-- The exchanged positions in ascending order of rows. -/
def rowPairs (pc : PcSymm) (s : LinkSymm) (j : ℕ) : List (ℕ × ℕ) :=
  (rows pc s).map fun row => (row j, row (j + 1))

theorem linkPairs_perm (h : LinkWf pc s) {j : ℕ} (hj : j + 1 < s.nlinks) :
    (linkPairs pc s j).Perm (rowPairs pc s j) := by
  unfold linkPairs rowPairs rows
  have key : ∀ (L : List ℕ), (∀ v ∈ L, v < s.nvbls) →
      (L.flatMap fun v => (obD s v j, obD s v (j + 1)) ::
        if Wr pc (obD s v j) then [(wpos pc (obD s v j), wpos pc (obD s v (j + 1)))] else []).Perm
      (((L.map fun v j => obD s v j) ++
        (L.filter fun v => Wr pc (obD s v 0)).map fun v j => wpos pc (obD s v j)).map
          fun row => (row j, row (j + 1))) := by
    intro L
    induction L with
    | nil => intro _; simp
    | cons v L ih =>
      intro hL
      have hv := hL v (by simp)
      have hw := h.wr hv (j := j) (j' := 0) (by omega) h.pos
      have ih := ih (fun v hv => hL v (by simp [hv]))
      simp only [List.flatMap_cons, List.map_cons, List.cons_append, List.map_append] at ih ⊢
      refine List.Perm.cons _ ?_
      by_cases hW : Wr pc (obD s v j)
      · rw [if_pos hW, List.filter_cons_of_pos (by simpa using hw.1 hW)]
        simp only [List.cons_append, List.nil_append, List.map_cons]
        refine List.Perm.trans (List.Perm.cons _ ih) ?_
        exact List.perm_middle.symm
      · rw [if_neg hW, List.filter_cons_of_neg (by simpa using fun h' => hW (hw.2 h'))]
        simpa using ih
  exact key _ (fun v hv => List.mem_range.1 hv)

theorem mem_rows (row : ℕ → ℕ) : row ∈ rows pc s ↔
    (∃ v < s.nvbls, row = fun j => obD s v j) ∨
    (∃ v < s.nvbls, Wr pc (obD s v 0) ∧ row = fun j => wpos pc (obD s v j)) := by
  simp only [rows, List.mem_append, List.mem_map, List.mem_range, List.mem_filter,
    decide_eq_true_eq, and_assoc]
  constructor
  · rintro (⟨v, h, rfl⟩ | ⟨v, h, h', rfl⟩)
    · exact Or.inl ⟨v, h, rfl⟩
    · exact Or.inr ⟨v, h, h', rfl⟩
  · rintro (⟨v, h, rfl⟩ | ⟨v, h, h', rfl⟩)
    · exact Or.inl ⟨v, h, rfl⟩
    · exact Or.inr ⟨v, h, h', rfl⟩

/-- Positions of rows lie inside the table. -/
theorem row_lt (h : LinkWf pc s) {row : ℕ → ℕ} (hr : row ∈ rows pc s) {j : ℕ} (hj : j < s.nlinks) :
    row j < pc.access.length + pc.wmap.length := by
  rcases (mem_rows row).1 hr with ⟨v, hv, rfl⟩ | ⟨v, hv, hw, rfl⟩
  · have := h.lt hv hj
    show obD s v j < _
    omega
  · exact wpos_lt ((h.wr hv hj h.pos).2 hw)

/-- Distinct entries of the table of rows are distinct positions. -/
theorem row_inj (h : LinkWf pc s) {i i' : ℕ} (hi : i < (rows pc s).length)
    (hi' : i' < (rows pc s).length) {j j' : ℕ} (hj : j < s.nlinks) (hj' : j' < s.nlinks)
    (he : (rows pc s)[i] j = (rows pc s)[i'] j') : i = i' ∧ j = j' := by
  have hlen : ((List.range s.nvbls).map fun v j => obD s v j).length = s.nvbls := by simp
  set F := (List.range s.nvbls).filter fun v => Wr pc (obD s v 0) with hF
  have hFn : F.Nodup := List.nodup_range.filter _
  have g : ∀ i (hi : i < (rows pc s).length), (∃ v < s.nvbls, v = i ∧
      (rows pc s)[i] = fun j => obD s v j) ∨ (∃ k, ∃ hk : k < F.length, i = s.nvbls + k ∧
        F[k] < s.nvbls ∧ Wr pc (obD s F[k] 0) ∧
        (rows pc s)[i] = fun j => wpos pc (obD s F[k] j)) := by
    intro i hi
    by_cases h' : i < s.nvbls
    · left
      refine ⟨i, h', rfl, ?_⟩
      simp only [rows]
      rw [List.getElem_append_left (by simpa using h')]
      simp
    · right
      have hk : i - s.nvbls < F.length := by
        simp only [rows, List.length_append, List.length_map, List.length_range] at hi
        have : F.length = ((List.range s.nvbls).filter fun v => decide (Wr pc (obD s v 0))).length := rfl
        omega
      have hm := List.mem_filter.1 (List.getElem_mem hk)
      refine ⟨i - s.nvbls, hk, by omega, by simpa using hm.1, by simpa using hm.2, ?_⟩
      simp only [rows]
      rw [List.getElem_append_right (by simpa using Nat.le_of_not_lt h')]
      simp [hF]
  rcases g i hi with ⟨v, hv, rfl, e1⟩ | ⟨k, hk, rfl, b1, w1, e1⟩ <;>
    rcases g i' hi' with ⟨v', hv', rfl, e2⟩ | ⟨k', hk', rfl, b2, w2, e2⟩ <;>
    rw [e1, e2] at he
  · exact h.ob_inj hv hj hv' hj' he
  · have h1 := h.lt hv hj
    simp only [wpos] at he
    omega
  · have h1 := h.lt hv' hj'
    simp only [wpos] at he
    omega
  · have := wpos_inj ((h.wr b1 hj h.pos).2 w1) ((h.wr b2 hj' h.pos).2 w2) he
    obtain ⟨a1, a2⟩ := h.ob_inj b1 hj b2 hj' this
    have := (hFn.getElem_inj_iff).1 a1
    exact ⟨by omega, a2⟩

theorem rowPairs_nodup (h : LinkWf pc s) {j : ℕ} (hj : j + 1 < s.nlinks) :
    (entries (rowPairs pc s j)).Nodup := by
  unfold entries rowPairs
  rw [List.flatMap_map, List.nodup_flatMap]
  constructor
  · intro row hr
    obtain ⟨i, hi, rfl⟩ := List.mem_iff_getElem.1 hr
    simp only [List.nodup_cons, List.mem_singleton, List.not_mem_nil, not_false_iff,
      List.nodup_nil, and_true]
    intro he
    have := (row_inj h hi hi (j := j) (j' := j + 1) (by omega) hj he).2
    omega
  · rw [List.pairwise_iff_getElem]
    intro i i' hi hi' hlt
    show List.Disjoint _ _
    intro x hx hx'
    have hne : ¬ i = i' := by omega
    simp only [List.mem_cons, List.not_mem_nil, or_false] at hx hx'
    rcases hx with rfl | rfl <;> rcases hx' with hx' | hx'
    · exact hne (row_inj h hi hi' (by omega) (by omega) hx').1
    · exact hne (row_inj h hi hi' (by omega) (by omega) hx').1
    · exact hne (row_inj h hi hi' (by omega) (by omega) hx').1
    · exact hne (row_inj h hi hi' (by omega) (by omega) hx').1

/-- Number of values of an action. -/
def nvals (pc : PcSymm) : ℕ := pc.access.length + pc.wmap.length

theorem doms_length (pc : PcSymm) : pc.doms.length = nvals pc := by
  simp [PcSymm.doms, rdoms_length, wdoms_length, nvals]

/-- What an exchange of adjacent links does to positions. -/
theorem swapLinks_spec (h : LinkWf pc s) {j : ℕ} (hj : j + 1 < s.nlinks) {l : List ℕ}
    (hl : l.length = nvals pc) :
    ∃ l', swapLinks pc s j l = some l' ∧ l'.length = nvals pc ∧
      ∀ k, l'.getD k 0 = l.getD (permOf (rowPairs pc s j) k) 0 := by
  have hp := linkPairs_perm h hj
  have hb : ∀ k ∈ entries (rowPairs pc s j), k < l.length := by
    intro k hk
    obtain ⟨p, hp, hk⟩ := entries_mem.1 hk
    obtain ⟨row, hr, rfl⟩ := List.mem_map.1 hp
    rw [hl]
    rcases hk with rfl | rfl
    · exact row_lt h hr (by omega)
    · exact row_lt h hr hj
  obtain ⟨l', e, n, g⟩ := swaps_spec (P := linkPairs pc s j) (l := l) (fun k hk =>
    hb k ((hp.flatMap_right _).mem_iff.1 hk))
  refine ⟨l', by rw [swapLinks_eq h hj, e], by omega, fun k => ?_⟩
  rw [g, permOf_perm ((hp.flatMap_right _).nodup_iff.2 (rowPairs_nodup h hj)) hp]

theorem doms_guard {r : ℕ} {a : Access} (h : pc.access[r]? = some a) :
    pc.doms.getD r 0 = a.rdomsz := by
  have hr : r < pc.access.length := by
    by_contra hc
    rw [List.getElem?_eq_none (by omega)] at h
    simp at h
  rw [List.getD_eq_getElem?_getD, PcSymm.doms, List.getElem?_append_left (by rw [rdoms_length]; exact hr)]
  simp [PcSymm.rdoms, h]

theorem doms_assign {r : ℕ} {a : Access} (h : pc.access[r]? = some a) (hw : r ∈ pc.wmap) :
    pc.doms.getD (wpos pc r) 0 = a.wdomsz := by
  have hi := List.idxOf_lt_length_of_mem hw
  rw [List.getD_eq_getElem?_getD, PcSymm.doms, List.getElem?_append_right (by rw [rdoms_length]; unfold wpos; omega),
    rdoms_length]
  have : wpos pc r - pc.access.length = pc.wmap.idxOf r := by unfold wpos; omega
  rw [this]
  simp [PcSymm.wdoms, hi, h]

theorem inDoms_iff {l ds : List ℕ} :
    InDoms l ds ↔ l.length = ds.length ∧ ∀ k < ds.length, l.getD k 0 < ds.getD k 0 := by
  unfold InDoms
  rw [List.forall₂_iff_get]
  constructor
  · rintro ⟨h1, h2⟩
    refine ⟨h1, fun k hk => ?_⟩
    have := h2 k (by omega) hk
    simpa [List.getD_eq_getElem?_getD, hk, show k < l.length by omega] using this
  · rintro ⟨h1, h2⟩
    refine ⟨h1, fun k k1 k2 => ?_⟩
    have := h2 k k2
    simpa [List.getD_eq_getElem?_getD, k1, k2] using this

/-- Exchanges keep values within their domains. -/
theorem swapLinks_inDoms (h : LinkWf pc s) {j : ℕ} (hj : j + 1 < s.nlinks) {l l' : List ℕ}
    (hl : InDoms l pc.doms) (e : swapLinks pc s j l = some l') : InDoms l' pc.doms := by
  have hll := hl.length_eq
  rw [doms_length] at hll
  obtain ⟨l2, e2, n, g⟩ := swapLinks_spec h hj hll
  rw [e, Option.some.injEq] at e2
  subst e2
  have hd : ∀ k, pc.doms.getD (permOf (rowPairs pc s j) k) 0 = pc.doms.getD k 0 := by
    have hn := rowPairs_nodup h hj
    intro k
    by_cases hk : k ∈ entries (rowPairs pc s j)
    · have pair : ∀ row ∈ rows pc s, pc.doms.getD (row j) 0 = pc.doms.getD (row (j + 1)) 0 := by
        intro row hr
        rcases (mem_rows row).1 hr with ⟨v, hv, rfl⟩ | ⟨v, hv, hw, rfl⟩
        · obtain ⟨a, h1, h2⟩ := h.acc hv (j := j) (j' := j + 1) (by omega) hj
          rw [doms_guard h1, doms_guard h2]
        · obtain ⟨a, h1, h2⟩ := h.acc hv (j := j) (j' := j + 1) (by omega) hj
          rw [doms_assign h1 ((h.wr hv (by omega) h.pos).2 hw),
            doms_assign h2 ((h.wr hv hj h.pos).2 hw)]
      obtain ⟨p, hp, hk⟩ := entries_mem.1 hk
      have hp' := permOf_pair hn hp
      obtain ⟨row, hr, rfl⟩ := List.mem_map.1 hp
      have := pair row hr
      rcases hk with rfl | rfl
      · rw [hp'.1]; exact this.symm
      · rw [hp'.2]; exact this
    · rw [permOf_fix hk]
  rw [inDoms_iff] at hl ⊢
  refine ⟨by rw [n, doms_length], fun k hk => ?_⟩
  rw [g, ← hd]
  apply hl.2
  by_contra hc
  have h1 : pc.doms.getD (permOf (rowPairs pc s j) k) 0 = 0 := by
    rw [List.getD_eq_getElem?_getD, List.getElem?_eq_none (by omega)]; rfl
  rw [hd] at h1
  have := hl.2 k hk
  omega

end

/-! ### The representative loop -/

/-- All symmetries are well formed. -/
def LinksWf (pc : PcSymm) : Prop := ∀ s ∈ pc.links, LinkWf pc s

/-- One exchange. -/
def SwapStep (pc : PcSymm) (l l' : List ℕ) : Prop :=
  ∃ s ∈ pc.links, ∃ j, j + 1 < s.nlinks ∧ swapLinks pc s j l = some l'

/-- No exchange gives a smaller table. -/
def RepFixed (pc : PcSymm) (l : List ℕ) : Prop := ∀ l', SwapStep pc l l' → ¬ l' < l

theorem repPairs_eq {pc : PcSymm} (h : LinksWf pc) : ∃ ps, repPairs pc = some ps ∧
    ∀ p, p ∈ ps ↔ p.1 ∈ pc.links ∧ p.2 + 1 < p.1.nlinks := by
  unfold repPairs
  rw [if_neg (by rintro ⟨s, hs, h0⟩; have := (h s hs).pos; omega)]
  refine ⟨_, rfl, ?_⟩
  rintro ⟨s, j⟩
  simp only [List.mem_flatMap, List.mem_map, List.mem_range, Prod.mk.injEq]
  constructor
  · rintro ⟨s', hs, j', hj, rfl, rfl⟩
    exact ⟨hs, by omega⟩
  · rintro ⟨hs, hj⟩
    exact ⟨s, hs, j, by omega, rfl, rfl⟩

theorem round_spec {pc : PcSymm} (h : LinksWf pc) (ps : List (LinkSymm × ℕ))
    (hps : ∀ p ∈ ps, p.1 ∈ pc.links ∧ p.2 + 1 < p.1.nlinks) (l : List ℕ) (b : Bool)
    (hl : InDoms l pc.doms) :
    ∃ l' b', ps.foldlM (repTry pc) (l, b) = some (l', b') ∧ InDoms l' pc.doms ∧
      Relation.ReflTransGen (SwapStep pc) l l' ∧
      ((b' = b ∧ l' = l ∧ ∀ p ∈ ps, ∀ l2, swapLinks pc p.1 p.2 l = some l2 → ¬ l2 < l) ∨
        (b' = true ∧ l' < l)) := by
  induction ps generalizing l b with
  | nil => exact ⟨l, b, rfl, hl, .refl, Or.inl ⟨rfl, rfl, by simp⟩⟩
  | cons p ps ih =>
    obtain ⟨hs, hj⟩ := hps p (by simp)
    have hll := hl.length_eq
    rw [doms_length] at hll
    obtain ⟨l1, e1, n1, g1⟩ := swapLinks_spec (h _ hs) hj hll
    have hd1 := swapLinks_inDoms (h _ hs) hj hl e1
    by_cases hlt : l1 < l
    · obtain ⟨l', b', e, hd, hr, hc⟩ := ih (fun q hq => hps q (by simp [hq])) l1 true hd1
      refine ⟨l', b', ?_, hd, .head ⟨p.1, hs, p.2, hj, e1⟩ hr, Or.inr ?_⟩
      · rw [List.foldlM_cons]
        simp only [repTry, e1, Option.map_some, if_pos hlt]
        exact e
      · rcases hc with ⟨rfl, rfl, -⟩ | ⟨rfl, hc⟩
        · exact ⟨rfl, hlt⟩
        · exact ⟨rfl, lt_trans hc hlt⟩
    · obtain ⟨l', b', e, hd, hr, hc⟩ := ih (fun q hq => hps q (by simp [hq])) l b hl
      refine ⟨l', b', ?_, hd, hr, ?_⟩
      · rw [List.foldlM_cons]
        simp only [repTry, e1, Option.map_some, if_neg hlt]
        exact e
      · rcases hc with ⟨rfl, rfl, hc⟩ | hc
        · left
          refine ⟨rfl, rfl, fun q hq l2 e2 => ?_⟩
          rcases List.mem_cons.1 hq with rfl | hq
          · rw [e1, Option.some.injEq] at e2
            rw [← e2]; exact hlt
          · exact hc q hq l2 e2
        · exact Or.inr hc

theorem repLoop_fixed {pc : PcSymm} (h : LinksWf pc) {l : List ℕ} (hl : InDoms l pc.doms)
    (hf : RepFixed pc l) (fuel : ℕ) : repLoop pc (fuel + 1) l = some l := by
  obtain ⟨ps, e, hps⟩ := repPairs_eq h
  obtain ⟨l', b', e', hd, hr, hc⟩ := round_spec h ps (fun p hp => (hps p).1 hp) l false hl
  rw [repLoop, e, Option.bind_some, e', Option.bind_some]
  rcases hc with ⟨rfl, rfl, -⟩ | ⟨rfl, hc⟩
  · rfl
  · exfalso
    -- a descending sequence of exchanges starts with a descending exchange
    have : ∀ (ps : List (LinkSymm × ℕ)), (∀ p ∈ ps, p.1 ∈ pc.links ∧ p.2 + 1 < p.1.nlinks) →
        ps.foldlM (repTry pc) (l, false) = some (l, false) := by
      intro ps
      induction ps with
      | nil => intro _; rfl
      | cons p ps ih =>
        intro hps
        obtain ⟨hs, hj⟩ := hps p (by simp)
        have hll := hl.length_eq
        rw [doms_length] at hll
        obtain ⟨l1, e1, -, -⟩ := swapLinks_spec (h _ hs) hj hll
        rw [List.foldlM_cons]
        simp only [repTry, e1, Option.map_some, if_neg (hf l1 ⟨p.1, hs, p.2, hj, e1⟩)]
        exact ih (fun q hq => hps q (by simp [hq]))
    rw [this ps (fun p hp => (hps p).1 hp)] at e'
    simp at e'

theorem repLoop_spec {pc : PcSymm} (h : LinksWf pc) (n : ℕ) {l : List ℕ} (hl : InDoms l pc.doms)
    (hn : indexOfState l pc.doms < n) :
    ∃ l', (∀ fuel, n ≤ fuel → repLoop pc fuel l = some l') ∧ InDoms l' pc.doms ∧
      Relation.ReflTransGen (SwapStep pc) l l' ∧ RepFixed pc l' ∧ l' ≤ l := by
  induction n generalizing l with
  | zero => omega
  | succ n ih =>
    obtain ⟨ps, e, hps⟩ := repPairs_eq h
    obtain ⟨l', b', e', hd, hr, hc⟩ := round_spec h ps (fun p hp => (hps p).1 hp) l false hl
    rcases hc with ⟨rfl, rfl, hc⟩ | ⟨rfl, hc⟩
    · refine ⟨l', fun fuel hf => ?_, hd, hr, ?_, le_rfl⟩
      · obtain ⟨f, rfl⟩ : ∃ f, fuel = f + 1 := ⟨fuel - 1, by omega⟩
        rw [repLoop, e, Option.bind_some, e', Option.bind_some]; rfl
      · rintro l2 ⟨s, hs, j, hj, e2⟩
        exact hc (s, j) ((hps _).2 ⟨hs, hj⟩) l2 e2
    · have := index_mono hd hl hc
      obtain ⟨l2, e2, hd2, hr2, hf2, hle⟩ := ih hd (by omega)
      refine ⟨l2, fun fuel hf => ?_, hd2, hr.trans hr2, hf2, hle.trans hc.le⟩
      obtain ⟨f, rfl⟩ : ∃ f, fuel = f + 1 := ⟨fuel - 1, by omega⟩
      rw [repLoop, e, Option.bind_some, e', Option.bind_some]
      exact e2 f (by omega)

/-! ### Canonicity -/

/-- Order of the accesses of symmetries, as made by the parser (src/prot-xfile.cc:313-357): within a
row ascending by link, rows ascending; different symmetries use different accesses. -/
structure LinksOrdered (pc : PcSymm) : Prop where
  inc : ∀ s ∈ pc.links, ∀ v < s.nvbls, ∀ j, j + 1 < s.nlinks → obD s v j < obD s v (j + 1)
  ord : ∀ s ∈ pc.links, ∀ v v', v < v' → v' < s.nvbls → ∀ j < s.nlinks, obD s v j < obD s v' j
  disj : ∀ s ∈ pc.links, ∀ s' ∈ pc.links, s ≠ s' → ∀ r ∈ s.t, r ∉ s'.t

section
variable {pc : PcSymm} {s : LinkSymm}

/-- The values of a link. -/
def linkKey (pc : PcSymm) (s : LinkSymm) (l : List ℕ) (j : ℕ) : List ℕ :=
  (rows pc s).map fun row => l.getD (row j) 0

theorem rows_sorted (h : LinkWf pc s) (ho : LinksOrdered pc) (hs : s ∈ pc.links) {j : ℕ}
    (hj : j < s.nlinks) : (rows pc s).Pairwise fun r r' => r j < r' j := by
  unfold rows
  rw [List.pairwise_append]
  refine ⟨?_, ?_, ?_⟩
  · rw [List.pairwise_map]
    refine List.Pairwise.imp_of_mem ?_ List.pairwise_lt_range
    intro v v' hv hv' hlt
    exact ho.ord s hs v v' hlt (by simpa using hv') j hj
  · rw [List.pairwise_map]
    refine List.Pairwise.imp_of_mem ?_ (List.pairwise_lt_range.filter _)
    intro v v' hv hv' hlt
    have hv := List.mem_filter.1 hv
    have hv' := List.mem_filter.1 hv'
    have b1 : v < s.nvbls := by simpa using hv.1
    have b2 : v' < s.nvbls := by simpa using hv'.1
    exact wpos_mono ((h.wr b1 hj h.pos).2 (by simpa using hv.2))
      ((h.wr b2 hj h.pos).2 (by simpa using hv'.2)) (ho.ord s hs v v' hlt b2 j hj)
  · intro r hr r' hr'
    obtain ⟨v, hv, rfl⟩ := List.mem_map.1 hr
    obtain ⟨v', hv', rfl⟩ := List.mem_map.1 hr'
    have := h.lt (List.mem_range.1 hv) hj
    show obD s v j < wpos pc _
    unfold wpos; omega

theorem swap_lt_iff (h : LinkWf pc s) (ho : LinksOrdered pc) (hs : s ∈ pc.links) {j : ℕ}
    (hj : j + 1 < s.nlinks) {l l' : List ℕ} (hl : l.length = nvals pc)
    (e : swapLinks pc s j l = some l') :
    l' < l ↔ linkKey pc s l (j + 1) < linkKey pc s l j := by
  obtain ⟨l2, e2, n, g⟩ := swapLinks_spec h hj hl
  rw [e, Option.some.injEq] at e2
  subst e2
  have := lex_swap (P := rowPairs pc s j) (l := l) (l' := l') ?_ ?_ (rowPairs_nodup h hj) ?_
    (by omega) g
  · rw [this]
    simp only [rowPairs, List.map_map]
    rfl
  · unfold rowPairs
    rw [List.pairwise_map]
    exact rows_sorted h ho hs (by omega)
  · intro p hp
    obtain ⟨row, hr, rfl⟩ := List.mem_map.1 hp
    rcases (mem_rows row).1 hr with ⟨v, hv, rfl⟩ | ⟨v, hv, hw, rfl⟩
    · exact ho.inc s hs v hv j hj
    · exact wpos_mono ((h.wr hv (by omega) h.pos).2 hw) ((h.wr hv hj h.pos).2 hw)
        (ho.inc s hs v hv j hj)
  · intro k hk
    obtain ⟨p, hp, hk⟩ := entries_mem.1 hk
    obtain ⟨row, hr, rfl⟩ := List.mem_map.1 hp
    rw [hl]
    rcases hk with rfl | rfl
    · exact row_lt h hr (by omega)
    · exact row_lt h hr hj

/-- The link that moves to place `i`. -/
def linkSwap (j i : ℕ) : ℕ := Equiv.swap j (j + 1) i

theorem key_same (h : LinkWf pc s) {j : ℕ} (hj : j + 1 < s.nlinks) {l l' : List ℕ}
    (g : ∀ k, l'.getD k 0 = l.getD (permOf (rowPairs pc s j) k) 0) {i : ℕ} (hi : i < s.nlinks) :
    linkKey pc s l' i = linkKey pc s l (Equiv.swap j (j + 1) i) := by
  unfold linkKey
  apply List.map_congr_left
  intro row hr
  rw [g]
  congr 1
  have hp : (row j, row (j + 1)) ∈ rowPairs pc s j := List.mem_map.2 ⟨row, hr, rfl⟩
  have hpp := permOf_pair (rowPairs_nodup h hj) hp
  rw [Equiv.swap_apply_def]
  by_cases h1 : i = j
  · subst h1; simpa using hpp.1
  · by_cases h2 : i = j + 1
    · subst h2; simpa [h1] using hpp.2
    · rw [if_neg h1, if_neg h2]
      apply permOf_fix
      intro hk
      obtain ⟨p, hp, hk⟩ := entries_mem.1 hk
      obtain ⟨row', hr', rfl⟩ := List.mem_map.1 hp
      obtain ⟨a, ha, rfl⟩ := List.mem_iff_getElem.1 hr
      obtain ⟨b, hb, rfl⟩ := List.mem_iff_getElem.1 hr'
      rcases hk with hk | hk
      · exact h1 (row_inj h ha hb hi (by omega) hk).2
      · exact h2 (row_inj h ha hb hi hj hk).2

/-- All keys of a symmetry. -/
def keys (pc : PcSymm) (s : LinkSymm) (l : List ℕ) : List (List ℕ) :=
  (List.range s.nlinks).map (linkKey pc s l)

theorem keys_same (h : LinkWf pc s) {j : ℕ} (hj : j + 1 < s.nlinks) {l l' : List ℕ}
    (g : ∀ k, l'.getD k 0 = l.getD (permOf (rowPairs pc s j) k) 0) :
    (keys pc s l').Perm (keys pc s l) := by
  have e : keys pc s l' =
      ((List.range s.nlinks).map (Equiv.swap j (j + 1))).map (linkKey pc s l) := by
    rw [List.map_map]
    unfold keys
    apply List.map_congr_left
    intro i hi
    exact key_same h hj g (List.mem_range.1 hi)
  rw [e]
  apply List.Perm.map
  rw [List.perm_ext_iff_of_nodup (List.nodup_range.map (Equiv.injective _)) List.nodup_range]
  intro i
  simp only [List.mem_map, List.mem_range]
  have b : ∀ i, i < s.nlinks → Equiv.swap j (j + 1) i < s.nlinks := by
    intro i hi
    rw [Equiv.swap_apply_def]
    split
    · omega
    · split <;> omega
  constructor
  · rintro ⟨i', hi', rfl⟩; exact b i' hi'
  · intro hi; exact ⟨_, b i hi, by simp⟩

/-- All positions of a symmetry. -/
def InLinks (pc : PcSymm) (s : LinkSymm) (k : ℕ) : Prop :=
  ∃ row ∈ rows pc s, ∃ j < s.nlinks, k = row j

theorem inLinks_disj {s' : LinkSymm} (h : LinkWf pc s) (h' : LinkWf pc s') (ho : LinksOrdered pc)
    (hs : s ∈ pc.links) (hs' : s' ∈ pc.links) (hne : s ≠ s') {k : ℕ} (hk : InLinks pc s k)
    (hk' : InLinks pc s' k) : False := by
  have mem : ∀ {s : LinkSymm}, LinkWf pc s → ∀ {v j}, v < s.nvbls → j < s.nlinks →
      obD s v j ∈ s.t := by
    intro s h v j hv hj
    have := (h.ob hv hj).1
    simp only [obD, List.getD_eq_getElem?_getD, List.getElem?_eq_getElem this, Option.getD_some]
    exact List.getElem_mem this
  obtain ⟨row, hr, j, hj, rfl⟩ := hk
  obtain ⟨row', hr', j', hj', he⟩ := hk'
  rcases (mem_rows row).1 hr with ⟨v, hv, rfl⟩ | ⟨v, hv, hw, rfl⟩ <;>
    rcases (mem_rows row').1 hr' with ⟨v', hv', rfl⟩ | ⟨v', hv', hw', rfl⟩
  · have he : obD s v j = obD s' v' j' := he
    exact ho.disj s hs s' hs' hne _ (mem h hv hj) (he ▸ mem h' hv' hj')
  · have he : obD s v j = wpos pc (obD s' v' j') := he
    have := h.lt hv hj
    unfold wpos at he; omega
  · have he : wpos pc (obD s v j) = obD s' v' j' := he
    have := h'.lt hv' hj'
    unfold wpos at he; omega
  · have he : wpos pc (obD s v j) = wpos pc (obD s' v' j') := he
    have he := wpos_inj ((h.wr hv hj h.pos).2 hw) ((h'.wr hv' hj' h'.pos).2 hw') he
    exact ho.disj s hs s' hs' hne _ (mem h hv hj) (he ▸ mem h' hv' hj')

theorem permOf_out {j k : ℕ} (hj : j + 1 < s.nlinks) (hk : ¬ InLinks pc s k) :
    permOf (rowPairs pc s j) k = k := by
  apply permOf_fix
  intro h
  obtain ⟨p, hp, h⟩ := entries_mem.1 h
  obtain ⟨row, hr, rfl⟩ := List.mem_map.1 hp
  rcases h with rfl | rfl
  · exact hk ⟨row, hr, j, by omega, rfl⟩
  · exact hk ⟨row, hr, j + 1, hj, rfl⟩

/-- What exchanges preserve. -/
structure SameLinks (pc : PcSymm) (l l' : List ℕ) : Prop where
  len : l'.length = l.length
  keys : ∀ s ∈ pc.links, (keys pc s l').Perm (keys pc s l)
  out : ∀ k, (∀ s ∈ pc.links, ¬ InLinks pc s k) → l'.getD k 0 = l.getD k 0

theorem SameLinks.refl (l : List ℕ) : SameLinks pc l l :=
  ⟨rfl, fun _ _ => List.Perm.refl _, fun _ _ => rfl⟩

theorem SameLinks.symm {l l' : List ℕ} (h : SameLinks pc l l') : SameLinks pc l' l :=
  ⟨h.len.symm, fun s hs => (h.keys s hs).symm, fun k hk => (h.out k hk).symm⟩

theorem SameLinks.trans {l l' l'' : List ℕ} (h : SameLinks pc l l') (h' : SameLinks pc l' l'') :
    SameLinks pc l l'' :=
  ⟨h'.len.trans h.len, fun s hs => (h'.keys s hs).trans (h.keys s hs),
    fun k hk => (h'.out k hk).trans (h.out k hk)⟩

theorem SwapStep.same (hw : LinksWf pc) (ho : LinksOrdered pc) {l l' : List ℕ}
    (hl : l.length = nvals pc) (h : SwapStep pc l l') : SameLinks pc l l' := by
  obtain ⟨s, hs, j, hj, e⟩ := h
  obtain ⟨l2, e2, n, g⟩ := swapLinks_spec (hw s hs) hj hl
  rw [e, Option.some.injEq] at e2
  subst e2
  refine ⟨by omega, fun s' hs' => ?_, fun k hk => ?_⟩
  · by_cases hne : s = s'
    · subst hne; exact keys_same (hw s hs) hj g
    · have : Verif.Proofs.keys pc s' l' = Verif.Proofs.keys pc s' l := by
        unfold Verif.Proofs.keys
        apply List.map_congr_left
        intro i hi
        unfold linkKey
        apply List.map_congr_left
        intro row hr
        rw [g, permOf_out hj]
        intro hk
        exact inLinks_disj (hw s hs) (hw s' hs') ho hs hs' hne hk
          ⟨row, hr, i, List.mem_range.1 hi, rfl⟩
      rw [this]
  · rw [g, permOf_out hj (hk s hs)]

theorem fixed_sorted (hw : LinksWf pc) (ho : LinksOrdered pc) {l : List ℕ}
    (hl : l.length = nvals pc) (hf : RepFixed pc l) {s : LinkSymm} (hs : s ∈ pc.links) :
    (keys pc s l).Pairwise (· ≤ ·) := by
  have step : ∀ j, j + 1 < s.nlinks → linkKey pc s l j ≤ linkKey pc s l (j + 1) := by
    intro j hj
    obtain ⟨l', e, -, -⟩ := swapLinks_spec (hw s hs) hj hl
    have := hf l' ⟨s, hs, j, hj, e⟩
    rw [swap_lt_iff (hw s hs) ho hs hj hl e] at this
    exact not_lt.1 this
  have mono : ∀ i j, i ≤ j → j < s.nlinks → linkKey pc s l i ≤ linkKey pc s l j := by
    intro i j hij
    induction j, hij using Nat.le_induction with
    | base => intro _; exact le_rfl
    | succ j _ ih => intro hj; exact (ih (by omega)).trans (step j hj)
  unfold keys
  rw [List.pairwise_map]
  refine List.Pairwise.imp_of_mem ?_ List.pairwise_lt_range
  intro i j _ hj hlt
  exact mono i j hlt.le (List.mem_range.1 hj)

/-- Two tables equal up to exchanges, neither of which can be decreased, are equal. -/
theorem fixed_unique (hw : LinksWf pc) (ho : LinksOrdered pc) {l l' : List ℕ}
    (hl : l.length = nvals pc) (hf : RepFixed pc l) (hf' : RepFixed pc l')
    (h : SameLinks pc l l') : l' = l := by
  have hl' : l'.length = nvals pc := by rw [h.len, hl]
  have hk : ∀ s ∈ pc.links, keys pc s l' = keys pc s l := fun s hs =>
    (h.keys s hs).eq_of_pairwise' (fixed_sorted hw ho hl' hf' hs)
      (fixed_sorted hw ho hl hf hs)
  have hg : ∀ k, l'.getD k 0 = l.getD k 0 := by
    intro k
    by_cases hin : ∃ s ∈ pc.links, InLinks pc s k
    · obtain ⟨s, hs, row, hr, j, hj, rfl⟩ := hin
      have h1 := List.map_inj_left.1 (hk s hs) j (List.mem_range.2 hj)
      exact List.map_inj_left.1 h1 row hr
    · exact h.out k (fun s hs hc => hin ⟨s, hs, hc⟩)
  refine List.ext_getElem h.len fun k k1 k2 => ?_
  simpa [List.getD_eq_getElem?_getD, k1, k2] using hg k

end

end Verif.Proofs
