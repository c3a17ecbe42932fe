import Verif.Proofs.Biring
import Verif.Props.Canonical

/-!
# Property C112: invariants of bidirectional rings that can be met by rings of every size

`biSat` and `biFix` are `biring_sat_ck` and `biring_fixpoint` of src/biring.cc, see Model/Biring; `BiRing` is in
Spec/Biring.
-/

namespace Verif.Props
open Verif.Spec Verif.Model Verif.Proofs

theorem biCoded (d : ℕ) : BiCoded d := ⟨(C36_config_index d).1, (C36_config_index d).2⟩

/-- **C112, `biring_fixpoint`.**  It ends, and what it leaves are the configurations that occur in a legitimate ring. -/
theorem C112_fixpoint (d : ℕ) {S : Finset ℕ} (hS : ∀ i ∈ S, i < d * d * d) : ∃ T, biFix d S = some T ∧
    ∀ i, i ∈ T ↔ i ∈ S ∧ ∃ n, BiRingAt d (fun c => enumIdxOfPcConfig c d ∈ S) n (pcConfigOfEnumIdx i d) := by
  obtain ⟨T, h1, h2⟩ := biFix_mem d hS
  refine ⟨T, h1, fun i => ?_⟩
  rw [h2, trans_iter]
  exact and_congr_right fun hi => exists_congr fun n => ring_iff (biCoded d) hS hi

/-- **C112, same rings.**  No legitimate ring is lost. -/
theorem C112_fixpoint_rings (d : ℕ) {S T : Finset ℕ} (hS : ∀ i ∈ S, i < d * d * d) (hT : biFix d S = some T) (n : ℕ)
    (x : ℕ → ℕ) (hn : 0 < n) (hp : ∀ i, x (i + n) = x i) (hd : ∀ i, x i < d) :
    (∀ i, enumIdxOfPcConfig (x i, x (i + 1), x (i + 2)) d ∈ T) ↔
      ∀ i, enumIdxOfPcConfig (x i, x (i + 1), x (i + 2)) d ∈ S := by
  obtain ⟨T', h1, h2⟩ := C112_fixpoint d hS
  rw [hT] at h1
  cases h1
  refine ⟨fun h i => ((h2 _).mp (h i)).1, fun h i => (h2 _).mpr ⟨h i, n, hn, fun k => x (i + k), ?_, ?_, ?_, ?_⟩⟩
  · exact fun k => by simpa [Nat.add_assoc] using hp (i + k)
  · exact fun k => hd _
  · exact fun k => h (i + k)
  · exact ((biCoded d).enc _ _ _ (hd i) (hd (i + 1)) (hd (i + 2))).1.symm

/-- **C112, `biring_sat_ck`.**  It ends.  For a smallest size `n0 > 0` it answers whether there is a legitimate ring of
each size from `n0`; for `n0 = 0` whether there is one of each size that is large enough. -/
theorem C112_sat (d : ℕ) {S : Finset ℕ} (hS : ∀ i ∈ S, i < d * d * d) (n0 : ℕ) : ∃ b, biSat d S n0 = some b ∧
    (0 < n0 → (b = true ↔ ∀ n ≥ n0, BiRing d (fun c => enumIdxOfPcConfig c d ∈ S) n)) ∧
    (n0 = 0 → (b = true ↔ ∃ m, ∀ n ≥ m, BiRing d (fun c => enumIdxOfPcConfig c d ∈ S) n)) := by
  obtain ⟨b, h1, h2⟩ := biSat_spec d hS n0
  refine ⟨b, h1, fun h0 => ?_, fun h0 => ?_⟩
  · rw [h2]
    simp only [biRing_iff (biCoded d) hS]
    constructor
    · exact fun h n hn => ⟨by omega, h.2 h0 n hn⟩
    · exact fun h => ⟨⟨n0, fun n hn _ => (h n hn).2⟩, fun _ n hn => (h n hn).2⟩
  · rw [h2]
    simp only [biRing_iff (biCoded d) hS]
    constructor
    · rintro ⟨⟨m, h⟩, -⟩
      exact ⟨m + 1, fun n hn => ⟨by omega, h n (by omega) (by omega)⟩⟩
    · rintro ⟨m, h⟩
      exact ⟨⟨m, fun n hn _ => (h n hn).2⟩, fun h' => by omega⟩

/-- A coloring of the ring with 3 colors: 12 configurations. -/
def biColor : Finset ℕ :=
  (Finset.range 27).filter fun i =>
    (pcConfigOfEnumIdx i 3).1 ≠ (pcConfigOfEnumIdx i 3).2.1 ∧ (pcConfigOfEnumIdx i 3).2.1 ≠ (pcConfigOfEnumIdx i 3).2.2

/-- A case of C112: rings can be colored with 3 colors if they have at least 2 processes, but not if they have one;
with 2 colors the odd sizes are missing; and a configuration without a successor is removed. -/
example : biSat 3 biColor 2 = some true ∧ biSat 3 biColor 1 = some false ∧
    biSat 2 {3, 4} 3 = some false ∧ biFix 2 {3, 4, 7, 1} = some {3, 4, 7} := by decide +kernel

end Verif.Props
