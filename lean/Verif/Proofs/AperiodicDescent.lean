import Verif.Model.Aperiodic
import Verif.Spec.Wang
import Mathlib.Tactic.Linarith

/-!
The tile set of `src/uni/aperiodic.cc` has no periodic tiling: blocks of tiles are tiles of the same set.
-/

namespace Verif.Proofs
open Verif.Model Verif.Spec

/-! ### Tiles that have neighbours -/

/-- The tiles with a fitting neighbour on every side. -/
def pruned (C : List Wang) : List Wang := C.filter fun t =>
  C.any (fun u => u.1 == t.2.2.2) && C.any (fun u => u.2.2.2 == t.1) && C.any (fun u => u.2.1 == t.2.2.1) &&
    C.any (fun u => u.2.2.1 == t.2.1)

/-- The tiles that are the lower right corner of a square. -/
def cornered (C : List Wang) : List Wang := C.filter fun t =>
  C.any fun l => l.2.2.2 == t.1 && C.any fun b => b.2.2.1 == t.2.1 && C.any fun x =>
    x.2.2.1 == l.2.1 && x.2.2.2 == b.1

variable {C : List Wang} {w h : ℕ} {G : ℕ → ℕ → Wang}

private theorem left_eq (ht : WangTorus C w h G) (hw : 1 ≤ w) (r c : ℕ) : G r (c + w - 1 + 1) = G r c := by
  rw [Nat.sub_add_cancel (by omega), ht.cols]

private theorem up_eq (ht : WangTorus C w h G) (hh : 1 ≤ h) (r c : ℕ) : G (r + h - 1 + 1) c = G r c := by
  rw [Nat.sub_add_cancel (by omega), ht.rows]

theorem torus_pruned (ht : WangTorus C w h G) (hw : 1 ≤ w) (hh : 1 ≤ h) : WangTorus (pruned C) w h G := by
  refine ⟨fun r c => ?_, ht.horz, ht.vert, ht.rows, ht.cols⟩
  unfold pruned
  simp only [List.mem_filter, Bool.and_eq_true, List.any_eq_true, beq_iff_eq]
  refine ⟨ht.mem r c, ⟨⟨⟨_, ht.mem r (c + 1), (ht.horz r c).symm⟩, ⟨_, ht.mem r (c + w - 1), ?_⟩⟩,
    ⟨_, ht.mem (r + 1) c, (ht.vert r c).symm⟩⟩, ⟨_, ht.mem (r + h - 1) c, ?_⟩⟩
  · rw [ht.horz, left_eq ht hw]
  · rw [ht.vert, up_eq ht hh]

theorem torus_cornered (ht : WangTorus C w h G) (hw : 1 ≤ w) (hh : 1 ≤ h) : WangTorus (cornered C) w h G := by
  refine ⟨fun r c => ?_, ht.horz, ht.vert, ht.rows, ht.cols⟩
  unfold cornered
  simp only [List.mem_filter, Bool.and_eq_true, List.any_eq_true, beq_iff_eq]
  refine ⟨ht.mem r c, _, ht.mem r (c + w - 1), ?_, _, ht.mem (r + h - 1) c, ?_, _, ht.mem (r + h - 1) (c + w - 1), ?_, ?_⟩
  · rw [ht.horz, left_eq ht hw]
  · rw [ht.vert, up_eq ht hh]
  · rw [ht.vert, up_eq ht hh]
  · rw [ht.horz, left_eq ht hw]

/-! ### Narrow rows and columns -/

/-- Reflection at the main diagonal. -/
def flipTile (t : Wang) : Wang := (t.2.1, t.1, t.2.2.2, t.2.2.1)

theorem flip_mem : ∀ t ∈ tileSet, flipTile t ∈ tileSet := by decide

theorem flip_torus {F : ℕ → ℕ → Wang} (ht : WangTorus tileSet w h F) : WangTorus tileSet h w fun r c => flipTile (F c r) :=
  ⟨fun r c => flip_mem _ (ht.mem c r), fun r c => ht.vert c r, fun r c => ht.horz c r, fun r c => by rw [ht.cols],
    fun r c => by rw [ht.rows]⟩

private theorem narrow_iff : ∀ t ∈ tileSet, (t.1 ≤ 2 ↔ t.2.2.2 ≤ 2) := by decide

theorem narrow_row {F : ℕ → ℕ → Wang} (ht : WangTorus tileSet w h F) (r c : ℕ) : (F r c).1 ≤ 2 ↔ (F r 0).1 ≤ 2 := by
  induction c with
  | zero => rfl
  | succ c ih => rw [← ih, ← ht.horz, narrow_iff _ (ht.mem r c)]

theorem narrow_col {F : ℕ → ℕ → Wang} (ht : WangTorus tileSet w h F) (r c : ℕ) : (F r c).2.1 ≤ 2 ↔ (F 0 c).2.1 ≤ 2 :=
  narrow_row (flip_torus ht) c r

private theorem narrow_over : ∀ t ∈ tileSet, ∀ u ∈ tileSet, t.1 ≤ 2 → u.1 ≤ 2 → t.2.2.1 = u.2.1 →
    t.2.2.2 = 1 ∧ (t.1 = 1 → u.1 = 2 ∧ u.2.2.2 = 1) := by decide

/-- Two narrow rows are never adjacent. -/
theorem narrow_apart {F : ℕ → ℕ → Wang} (ht : WangTorus tileSet w h F) {r : ℕ} (h1 : (F r 0).1 ≤ 2) :
    ¬ (F (r + 1) 0).1 ≤ 2 := by
  intro h2
  have key : ∀ c, (F r c).2.2.2 = 1 ∧ ((F r c).1 = 1 → (F (r + 1) c).1 = 2 ∧ (F (r + 1) c).2.2.2 = 1) := fun c =>
    narrow_over _ (ht.mem r c) _ (ht.mem (r + 1) c) ((narrow_row ht r c).2 h1) ((narrow_row ht (r + 1) c).2 h2) (ht.vert r c)
  have w1 : (F r 1).1 = 1 := by rw [← ht.horz r 0]; exact (key 0).1
  have w2 : (F r 2).1 = 1 := by rw [← ht.horz r 1]; exact (key 1).1
  have := ht.horz (r + 1) 1
  rw [((key 1).2 w1).2, ((key 2).2 w2).1] at this
  omega

theorem narrow_apart_col {F : ℕ → ℕ → Wang} (ht : WangTorus tileSet w h F) {c : ℕ} (h1 : (F 0 c).2.1 ≤ 2) :
    ¬ (F 0 (c + 1)).2.1 ≤ 2 := narrow_apart (flip_torus ht) h1

/-! ### Blocks of rows -/

/-- Every block starts with a wide row, and a narrow row belongs to the block before it. -/
structure Blocks (A : ℕ → Prop) (h h' : ℕ) (ρ : ℕ → ℕ) : Prop where
  wide : ∀ k, ¬ A (ρ k)
  next : ∀ k, (A (ρ k + 1) ∧ ρ (k + 1) = ρ k + 2) ∨ (¬ A (ρ k + 1) ∧ ρ (k + 1) = ρ k + 1)
  per : ∀ k, ρ (k + h') = ρ k + h
  pos : 1 ≤ h'

theorem Blocks.lt {A : ℕ → Prop} {h h' : ℕ} {ρ : ℕ → ℕ} (hb : Blocks A h h' ρ) {k : ℕ} (hk : A (ρ k + 1)) : h' < h := by
  have mono : ∀ j i, ρ i + j ≤ ρ (i + j) := by
    intro j
    induction j with
    | zero => intro i; exact le_rfl
    | succ j ih =>
      intro i
      have := ih i
      show ρ i + (j + 1) ≤ ρ (i + j + 1)
      rcases hb.next (i + j) with ⟨-, e⟩ | ⟨-, e⟩ <;> omega
  rcases hb.next k with ⟨-, e⟩ | ⟨hn, -⟩
  · have h1 := mono (h' - 1) (k + 1)
    have h2 := hb.per k
    rw [show k + 1 + (h' - 1) = k + h' by have := hb.pos; omega] at h1
    have := hb.pos
    omega
  · exact absurd hk hn

open Classical in
theorem exists_blocks {A : ℕ → Prop} {h : ℕ} (hh : 1 ≤ h) (apart : ∀ r, A r → ¬ A (r + 1)) (per : ∀ r, A (r + h) ↔ A r) :
    ∃ ρ h', Blocks A h h' ρ := by
  obtain ⟨s, hs⟩ : ∃ s, ¬ A s := by
    by_cases h0 : A 0
    · exact ⟨1, apart 0 h0⟩
    · exact ⟨0, h0⟩
  let ρ : ℕ → ℕ := fun k => k.rec s fun _ x => if A (x + 1) then x + 2 else x + 1
  have next : ∀ k, (A (ρ k + 1) ∧ ρ (k + 1) = ρ k + 2) ∨ (¬ A (ρ k + 1) ∧ ρ (k + 1) = ρ k + 1) := by
    intro k
    have e : ρ (k + 1) = if A (ρ k + 1) then ρ k + 2 else ρ k + 1 := rfl
    by_cases hA : A (ρ k + 1)
    · exact .inl ⟨hA, by rw [e, if_pos hA]⟩
    · exact .inr ⟨hA, by rw [e, if_neg hA]⟩
  have wide : ∀ k, ¬ A (ρ k) := by
    intro k
    cases k with
    | zero => exact hs
    | succ k =>
      rcases next k with ⟨h1, e⟩ | ⟨h1, e⟩
      · rw [e]; exact apart _ h1
      · rw [e]; exact h1
  have hit : ∀ d, ¬ A (s + d) → ∃ k, ρ k = s + d := by
    intro d
    induction d using Nat.strongRecOn with
    | ind d ih =>
      intro hd
      rcases Nat.eq_zero_or_pos d with rfl | hd0
      · exact ⟨0, rfl⟩
      by_cases h1 : A (s + (d - 1))
      · have hd2 : 2 ≤ d := by
          rcases Nat.lt_or_ge d 2 with hlt | hge
          · have : d = 1 := by omega
            subst this
            exact absurd h1 hs
          · exact hge
        have h2 : ¬ A (s + (d - 2)) := fun hc => apart _ hc (by rw [show s + (d - 2) + 1 = s + (d - 1) by omega]; exact h1)
        obtain ⟨k, hk⟩ := ih (d - 2) (by omega) h2
        rcases next k with ⟨-, e⟩ | ⟨h3, -⟩
        · exact ⟨k + 1, by omega⟩
        · exact absurd (by rw [hk, show s + (d - 2) + 1 = s + (d - 1) by omega]; exact h1) h3
      · obtain ⟨k, hk⟩ := ih (d - 1) (by omega) h1
        rcases next k with ⟨h3, -⟩ | ⟨-, e⟩
        · rw [hk, show s + (d - 1) + 1 = s + d by omega] at h3
          exact absurd h3 hd
        · exact ⟨k + 1, by omega⟩
  obtain ⟨h', hk⟩ := hit h fun hc => hs ((per s).1 hc)
  refine ⟨ρ, h', wide, next, fun k => ?_, ?_⟩
  · induction k with
    | zero => rw [Nat.zero_add]; exact hk
    | succ k ih =>
      have ea : A (ρ k + h + 1) ↔ A (ρ k + 1) := by rw [show ρ k + h + 1 = ρ k + 1 + h by omega]; exact per _
      have n2 := next (k + h')
      rw [ih, ea] at n2
      rw [show k + 1 + h' = k + h' + 1 by omega]
      rcases next k with ⟨h1, e⟩ | ⟨h1, e⟩ <;> rcases n2 with ⟨h2, e2⟩ | ⟨h2, e2⟩
      · omega
      · exact absurd h1 h2
      · exact absurd h2 h1
      · omega
  · rcases Nat.eq_zero_or_pos h' with rfl | hp
    · have : s = s + h := hk
      omega
    · exact hp

/-! ### Blocks of tiles -/

/-- The colours of a block: a single edge, or two edges. -/
def word (x : ℕ) (y : Option ℕ) : ℕ :=
  match y with
  | none => x
  | some y => 10 * x + y

/-- The blocks of tiles. -/
def comps : List Wang :=
  (tileSet.filter fun t => decide (3 ≤ t.1) && decide (3 ≤ t.2.1)).flatMap fun t =>
    let us := tileSet.filter fun u => decide (u.2.1 ≤ 2) && u.1 == t.2.2.2
    let vs := tileSet.filter fun v => decide (v.1 ≤ 2) && v.2.1 == t.2.2.1
    t :: (vs.map fun v => (word t.1 (some v.1), t.2.1, v.2.2.1, word t.2.2.2 (some v.2.2.2))) ++
      (us.map fun u => (t.1, word t.2.1 (some u.2.1), word t.2.2.1 (some u.2.2.1), u.2.2.2)) ++
      us.flatMap fun u => vs.flatMap fun v => (tileSet.filter fun x => x.1 == v.2.2.2 && x.2.1 == u.2.2.1).map fun x =>
        (word t.1 (some v.1), word t.2.1 (some u.2.1), word v.2.2.1 (some x.2.2.1), word u.2.2.2 (some x.2.2.2))

/-- The colours of the tile set as names of colours of blocks. -/
def nameOf (x : ℕ) : ℕ :=
  if x = 6 then 1 else if x = 3 then 2 else if x = 42 then 3 else if x = 32 then 4 else if x = 62 then 5
  else if x = 41 then 6 else 0

/-- A block as a tile. -/
def nameTile (t : Wang) : Wang := (nameOf t.1, nameOf t.2.1, nameOf t.2.2.1, nameOf t.2.2.2)

/-- The blocks that occur in tilings of the plane are the tiles. -/
theorem comps_tiles : ∀ t ∈ cornered (pruned (pruned comps)), nameTile t ∈ tileSet ∧
    (nameOf t.1 ≤ 2 ↔ t.1 < 10) := by decide +kernel

section
variable {F : ℕ → ℕ → Wang} {w' h' : ℕ} {ρ γ : ℕ → ℕ}

open Classical in
/-- The west colour of a block. -/
noncomputable def westOf (F : ℕ → ℕ → Wang) (ρ γ : ℕ → ℕ) (k l : ℕ) : ℕ :=
  word (F (ρ k) (γ l)).1 (if (F (ρ k + 1) 0).1 ≤ 2 then some (F (ρ k + 1) (γ l)).1 else none)

open Classical in
/-- The north colour of a block. -/
noncomputable def northOf (F : ℕ → ℕ → Wang) (ρ γ : ℕ → ℕ) (k l : ℕ) : ℕ :=
  word (F (ρ k) (γ l)).2.1 (if (F 0 (γ l + 1)).2.1 ≤ 2 then some (F (ρ k) (γ l + 1)).2.1 else none)

/-- The blocks. -/
noncomputable def blockOf (F : ℕ → ℕ → Wang) (ρ γ : ℕ → ℕ) (k l : ℕ) : Wang :=
  (westOf F ρ γ k l, northOf F ρ γ k l, northOf F ρ γ (k + 1) l, westOf F ρ γ k (l + 1))

theorem block_mem (ht : WangTorus tileSet w h F) (hρ : Blocks (fun r => (F r 0).1 ≤ 2) h h' ρ)
    (hγ : Blocks (fun c => (F 0 c).2.1 ≤ 2) w w' γ) (k l : ℕ) : blockOf F ρ γ k l ∈ comps := by
  have tW : 3 ≤ (F (ρ k) (γ l)).1 := by
    have := hρ.wide k
    have h2 := narrow_row ht (ρ k) (γ l)
    by_contra hc
    exact this (h2.1 (by omega))
  have tN : 3 ≤ (F (ρ k) (γ l)).2.1 := by
    have := hγ.wide l
    have h2 := narrow_col ht (ρ k) (γ l)
    by_contra hc
    exact this (h2.1 (by omega))
  have hT : F (ρ k) (γ l) ∈ tileSet.filter fun t => decide (3 ≤ t.1) && decide (3 ≤ t.2.1) := by
    simp only [List.mem_filter, Bool.and_eq_true, decide_eq_true_eq]
    exact ⟨ht.mem _ _, tW, tN⟩
  refine List.mem_flatMap.2 ⟨_, hT, ?_⟩
  have hus : (F 0 (γ l + 1)).2.1 ≤ 2 → F (ρ k) (γ l + 1) ∈ tileSet.filter fun u =>
      decide (u.2.1 ≤ 2) && u.1 == (F (ρ k) (γ l)).2.2.2 := by
    intro hA
    simp only [List.mem_filter, Bool.and_eq_true, decide_eq_true_eq, beq_iff_eq]
    exact ⟨ht.mem _ _, (narrow_col ht (ρ k) (γ l + 1)).2 hA, (ht.horz _ _).symm⟩
  have hvs : (F (ρ k + 1) 0).1 ≤ 2 → F (ρ k + 1) (γ l) ∈ tileSet.filter fun v =>
      decide (v.1 ≤ 2) && v.2.1 == (F (ρ k) (γ l)).2.2.1 := by
    intro hA
    simp only [List.mem_filter, Bool.and_eq_true, decide_eq_true_eq, beq_iff_eq]
    exact ⟨ht.mem _ _, (narrow_row ht (ρ k + 1) (γ l)).2 hA, (ht.vert _ _).symm⟩
  simp only [List.mem_append, List.mem_cons, List.mem_map, List.mem_flatMap]
  rcases hρ.next k with ⟨a1, e1⟩ | ⟨a1, e1⟩ <;> rcases hγ.next l with ⟨a2, e2⟩ | ⟨a2, e2⟩
  · refine .inr ⟨_, hus a2, _, hvs a1, F (ρ k + 1) (γ l + 1), ?_, ?_⟩
    · simp only [List.mem_filter, Bool.and_eq_true, beq_iff_eq]
      exact ⟨ht.mem _ _, (ht.horz _ _).symm, (ht.vert _ _).symm⟩
    · simp only [blockOf, westOf, northOf, e1, e2, if_pos a1, if_pos a2, ht.horz, ht.vert]
  · refine .inl (.inl (.inr ⟨_, hvs a1, ?_⟩))
    simp only [blockOf, westOf, northOf, e1, e2, if_pos a1, if_neg a2, ht.horz, ht.vert, word]
  · refine .inl (.inr ⟨_, hus a2, ?_⟩)
    simp only [blockOf, westOf, northOf, e1, e2, if_neg a1, if_pos a2, ht.horz, ht.vert, word]
  · refine .inl (.inl (.inl ?_))
    simp only [blockOf, westOf, northOf, e1, e2, if_neg a1, if_neg a2, ← ht.horz, ← ht.vert, word]

theorem block_torus (ht : WangTorus tileSet w h F) (hρ : Blocks (fun r => (F r 0).1 ≤ 2) h h' ρ)
    (hγ : Blocks (fun c => (F 0 c).2.1 ≤ 2) w w' γ) : WangTorus comps w' h' (blockOf F ρ γ) := by
  have wr : ∀ k l, westOf F ρ γ (k + h') l = westOf F ρ γ k l := fun k l => by
    unfold westOf
    rw [hρ.per, show ρ k + h + 1 = ρ k + 1 + h by omega, ht.rows, ht.rows, ht.rows]
  have wc : ∀ k l, westOf F ρ γ k (l + w') = westOf F ρ γ k l := fun k l => by
    unfold westOf
    rw [hγ.per, ht.cols, ht.cols]
  have nr : ∀ k l, northOf F ρ γ (k + h') l = northOf F ρ γ k l := fun k l => by
    unfold northOf
    rw [hρ.per, ht.rows, ht.rows]
  have nc : ∀ k l, northOf F ρ γ k (l + w') = northOf F ρ γ k l := fun k l => by
    unfold northOf
    rw [hγ.per, show γ l + w + 1 = γ l + 1 + w by omega, ht.cols, ht.cols, ht.cols]
  refine ⟨block_mem ht hρ hγ, fun _ _ => rfl, fun _ _ => rfl, fun k l => ?_, fun k l => ?_⟩
  · simp only [blockOf, wr, nr, show k + h' + 1 = k + 1 + h' by omega]
  · simp only [blockOf, wc, nc, show l + w' + 1 = l + 1 + w' by omega]

/-- The blocks of a periodic tiling are a periodic tiling with fewer rows. -/
theorem descent (ht : WangTorus tileSet w h F) (hw : 1 ≤ w) (hh : 1 ≤ h) :
    ∃ w' h' F', 1 ≤ w' ∧ 1 ≤ h' ∧ h' < h ∧ WangTorus tileSet w' h' F' := by
  obtain ⟨ρ, h', hρ⟩ := exists_blocks (A := fun r => (F r 0).1 ≤ 2) hh (fun r => narrow_apart ht) fun r => by rw [ht.rows]
  obtain ⟨γ, w', hγ⟩ := exists_blocks (A := fun c => (F 0 c).2.1 ≤ 2) hw (fun c => narrow_apart_col ht)
    fun c => by rw [ht.cols]
  have t1 := torus_cornered (torus_pruned (torus_pruned (block_torus ht hρ hγ) hγ.pos hρ.pos) hγ.pos hρ.pos) hγ.pos hρ.pos
  have t2 : WangTorus tileSet w' h' fun k l => nameTile (blockOf F ρ γ k l) := by
    refine ⟨fun k l => (comps_tiles _ (t1.mem k l)).1, fun k l => ?_, fun k l => ?_, fun k l => ?_, fun k l => ?_⟩
    · simp only [nameTile, t1.horz]
    · simp only [nameTile, t1.vert]
    · rw [t1.rows]
    · rw [t1.cols]
  refine ⟨w', h', _, hγ.pos, hρ.pos, ?_, t2⟩
  have single : ∀ k, ¬ (F (ρ k + 1) 0).1 ≤ 2 → nameOf (blockOf F ρ γ k 0).1 ≤ 2 := fun k hk => by
    have hm := ht.mem (ρ k) (γ 0)
    have : ∀ t ∈ tileSet, t.1 < 10 := by decide
    refine (comps_tiles _ (t1.mem k 0)).2.2 ?_
    simp only [blockOf, westOf, if_neg hk, word]
    exact this _ hm
  by_cases h0 : (F (ρ 0 + 1) 0).1 ≤ 2
  · exact hρ.lt h0
  by_cases h1 : (F (ρ 1 + 1) 0).1 ≤ 2
  · exact hρ.lt h1
  exact absurd (single 1 h1) (narrow_apart t2 (r := 0) (single 0 h0))

/-- The tile set has no periodic tiling. -/
theorem tileSet_aperiodic : ¬ WangPeriodic tileSet := by
  rintro ⟨w, h, F, hw, hh, ht⟩
  induction h using Nat.strongRecOn generalizing w F with
  | ind h ih =>
    obtain ⟨w', h', F', a, b, c, d⟩ := descent ht hw hh
    exact ih h' c w' F' a b d

end

end Verif.Proofs
