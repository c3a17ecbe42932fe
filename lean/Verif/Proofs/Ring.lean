import Verif.Spec.Ring
import Mathlib.Data.Fintype.Card
import Mathlib.Data.Nat.Count
import Mathlib.Data.Fintype.Pigeonhole
import Mathlib.Algebra.BigOperators.Group.Finset.Basic
import Mathlib.Algebra.Order.BigOperators.Group.Finset
import Mathlib.Data.ZMod.Basic
import Mathlib.Data.Nat.Nth
import Mathlib.Tactic.Ring

/-!
Helper lemmas: infinite executions of unidirectional rings.  After finitely many steps the set of
enabled processes moves around the ring like tokens that never collide; the values of each process
then form a sequence determined by that of its predecessor (a tiling).
-/

set_option linter.unusedSectionVars false
set_option linter.unusedVariables false

namespace Verif.Model
open Verif.Spec

universe u
variable {V : Type u} {n : ℕ} [NeZero n]

theorem one_ne_zero_zmod (hn : 2 ≤ n) : (1 : ZMod n) ≠ 0 := by
  have : Fact (1 < n) := ⟨by omega⟩
  exact one_ne_zero

theorem succ_ne (hn : 2 ≤ n) (i : ZMod n) : i + 1 ≠ i := by
  intro h
  exact one_ne_zero_zmod hn (by simpa using h)

open Classical in
/-- The enabled processes. -/
noncomputable def enab (f : ZMod n → V → V → V → Prop) (x : ZMod n → V) : Finset (ZMod n) :=
  Finset.univ.filter fun i => ∃ c, f i (x (i - 1)) (x i) c

theorem mem_enab {f : ZMod n → V → V → V → Prop} {x : ZMod n → V} {i : ZMod n} :
    i ∈ enab f x ↔ ∃ c, f i (x (i - 1)) (x i) c := by simp [enab]

theorem enab_step (hn : 2 ≤ n) {f : ZMod n → V → V → V → Prop} (hsd : SelfDisabling f) {x : ZMod n → V}
    {p : ZMod n} {c : V} (h : f p (x (p - 1)) (x p) c) :
    enab f (Function.update x p c) ⊆ insert (p + 1) ((enab f x).erase p) := by
  intro i hi
  rw [mem_enab] at hi
  by_cases h1 : i = p + 1
  · exact Finset.mem_insert.2 (Or.inl h1)
  · have h2 : i - 1 ≠ p := fun h => h1 (by rw [← h]; ring)
    by_cases h3 : i = p
    · subst h3
      rw [Function.update_of_ne h2, Function.update_self] at hi
      obtain ⟨d, hd⟩ := hi
      exact absurd hd (hsd _ _ _ _ h d)
    · rw [Function.update_of_ne h2, Function.update_of_ne h3] at hi
      exact Finset.mem_insert_of_mem (Finset.mem_erase.2 ⟨h3, mem_enab.2 hi⟩)

theorem enab_card_le (hn : 2 ≤ n) {f : ZMod n → V → V → V → Prop} (hsd : SelfDisabling f) {x : ZMod n → V}
    {p : ZMod n} {c : V} (h : f p (x (p - 1)) (x p) c) :
    (enab f (Function.update x p c)).card ≤ (enab f x).card ∧
    ((enab f (Function.update x p c)).card = (enab f x).card →
      p + 1 ∉ enab f x ∧ p + 1 ∈ enab f (Function.update x p c)) := by
  have hsub := enab_step hn hsd h
  have hp : p ∈ enab f x := mem_enab.2 ⟨_, h⟩
  have hcard := Finset.card_erase_of_mem hp
  have hpos : 0 < (enab f x).card := Finset.card_pos.2 ⟨p, hp⟩
  have h1 := Finset.card_le_card hsub
  have h2 := Finset.card_insert_le (p + 1) ((enab f x).erase p)
  refine ⟨by omega, fun heq => ⟨fun hmem => ?_, ?_⟩⟩
  · have : p + 1 ∈ (enab f x).erase p := Finset.mem_erase.2 ⟨succ_ne hn p, hmem⟩
    rw [Finset.insert_eq_of_mem this] at h1
    omega
  · by_contra hmem
    have : enab f (Function.update x p c) ⊆ (enab f x).erase p := by
      intro i hi
      rcases Finset.mem_insert.1 (hsub hi) with rfl | h
      · exact absurd hi hmem
      · exact h
    have := Finset.card_le_card this
    omega

/-- A collision-free infinite execution: `p t` acts at time `t`, its successor is disabled before
and enabled after. -/
structure Run (f : ZMod n → V → V → V → Prop) (e : ℕ → ZMod n → V) (p : ℕ → ZMod n) : Prop where
  act : ∀ t, f (p t) (e t (p t - 1)) (e t (p t)) (e (t + 1) (p t))
  other : ∀ t i, i ≠ p t → e (t + 1) i = e t i
  dis : ∀ t c, ¬ f (p t + 1) (e t (p t)) (e t (p t + 1)) c
  en : ∀ t, ∃ c, f (p t + 1) (e (t + 1) (p t)) (e (t + 1) (p t + 1)) c

theorem run_of_const (hn : 2 ≤ n) {f : ZMod n → V → V → V → Prop} (hsd : SelfDisabling f)
    {e : ℕ → ZMod n → V} (he : RExec f e)
    (hc : ∀ t, (enab f (e (t + 1))).card = (enab f (e t)).card) : ∃ p, Run f e p := by
  choose p c hpc heq using he
  have hx : ∀ t, e (t + 1) (p t) = c t := by
    intro t; rw [heq t, Function.update_self]
  have key : ∀ t, p t + 1 ∉ enab f (e t) ∧ p t + 1 ∈ enab f (e (t + 1)) := by
    intro t
    have h := (enab_card_le hn hsd (hpc t)).2
    rw [← heq t] at h
    exact h (hc t)
  refine ⟨p, ⟨fun t => by rw [hx]; exact hpc t, ?_, ?_, ?_⟩⟩
  · intro t i hi
    rw [heq t, Function.update_of_ne hi]
  · intro t
    have := (key t).1
    rw [mem_enab] at this
    simpa using this
  · intro t
    have := (key t).2
    rw [mem_enab] at this
    simpa using this

theorem rexec_antitone (hn : 2 ≤ n) {f : ZMod n → V → V → V → Prop} (hsd : SelfDisabling f)
    {e : ℕ → ZMod n → V} (he : RExec f e) :
    ∀ s t, s ≤ t → (enab f (e t)).card ≤ (enab f (e s)).card := by
  intro s t hst
  induction t, hst using Nat.le_induction with
  | base => exact le_refl _
  | succ t _ ih =>
    obtain ⟨p, c, h, heq⟩ := he t
    rw [heq]
    exact (enab_card_le hn hsd h).1.trans ih

/-- After some time every infinite execution is collision-free. -/
theorem exists_run (hn : 2 ≤ n) {f : ZMod n → V → V → V → Prop} (hsd : SelfDisabling f)
    {e : ℕ → ZMod n → V} (he : RExec f e) : ∃ T p, Run f (fun t => e (T + t)) p := by
  have hex : ∃ N T, (enab f (e T)).card = N := ⟨_, 0, rfl⟩
  classical
  obtain ⟨T, hT⟩ := Nat.find_spec hex
  have hmin : ∀ t, (enab f (e T)).card ≤ (enab f (e t)).card := by
    intro t
    rw [hT]
    exact Nat.find_min' hex ⟨t, rfl⟩
  have hconst : ∀ t, (enab f (e (T + t))).card = (enab f (e T)).card := by
    intro t
    exact le_antisymm (rexec_antitone hn hsd he _ _ (by omega)) (hmin _)
  obtain ⟨p, hp⟩ := run_of_const hn hsd (e := fun t => e (T + t)) (fun t => he (T + t)) (by
    intro t
    rw [hconst, hconst])
  exact ⟨T, p, hp⟩

/-- How often `i` has acted before time `t`. -/
def cnt (p : ℕ → ZMod n) (t : ℕ) (i : ZMod n) : ℕ := Nat.count (fun s => p s = i) t

theorem cnt_zero (p : ℕ → ZMod n) (i : ZMod n) : cnt p 0 i = 0 := by simp [cnt]

theorem cnt_succ_self {p : ℕ → ZMod n} {t : ℕ} {i : ZMod n} (h : p t = i) :
    cnt p (t + 1) i = cnt p t i + 1 := by simp [cnt, Nat.count_succ, h]

theorem cnt_succ_ne {p : ℕ → ZMod n} {t : ℕ} {i : ZMod n} (h : p t ≠ i) :
    cnt p (t + 1) i = cnt p t i := by simp [cnt, Nat.count_succ, h]

theorem cnt_mono (p : ℕ → ZMod n) (i : ZMod n) {s t : ℕ} (h : s ≤ t) : cnt p s i ≤ cnt p t i :=
  Nat.count_monotone _ h

open Classical in
/-- Initially enabled. -/
noncomputable def del (f : ZMod n → V → V → V → Prop) (x : ZMod n → V) (i : ZMod n) : ℕ :=
  if ∃ c, f i (x (i - 1)) (x i) c then 1 else 0

theorem del_le (f : ZMod n → V → V → V → Prop) (x : ZMod n → V) (i : ZMod n) : del f x i ≤ 1 := by
  unfold del; split <;> omega

theorem Run.inv (hn : 2 ≤ n) {f : ZMod n → V → V → V → Prop} (hsd : SelfDisabling f) {e : ℕ → ZMod n → V}
    {p : ℕ → ZMod n} (h : Run f e p) (t : ℕ) : ∀ i,
    ((∃ c, f i (e t (i - 1)) (e t i) c) ∧ cnt p t (i - 1) + del f (e 0) i = cnt p t i + 1) ∨
    ((∀ c, ¬ f i (e t (i - 1)) (e t i) c) ∧ cnt p t (i - 1) + del f (e 0) i = cnt p t i) := by
  induction t with
  | zero =>
    intro i
    simp only [cnt_zero, del]
    by_cases h : ∃ c, f i (e 0 (i - 1)) (e 0 i) c
    · left; simp [h]
    · right; rw [if_neg h]; exact ⟨not_exists.1 h, by simp⟩
  | succ t ih =>
    intro i
    by_cases h1 : i = p t
    · subst h1
      have hne : p t ≠ p t - 1 := fun hh => one_ne_zero_zmod hn (by
        have := sub_eq_self.1 hh.symm; exact this)
      have hact := h.act t
      right
      rw [h.other t _ hne.symm, cnt_succ_self rfl, cnt_succ_ne hne]
      refine ⟨hsd _ _ _ _ hact, ?_⟩
      rcases ih (p t) with ⟨_, h3⟩ | ⟨h3, _⟩
      · exact h3
      · exact absurd hact (h3 _)
    · by_cases h2 : i = p t + 1
      · subst h2
        have hs : p t + 1 - 1 = p t := by ring
        left
        rw [hs]
        refine ⟨h.en t, ?_⟩
        rw [cnt_succ_self rfl, cnt_succ_ne (fun hh => h1 hh.symm)]
        have hd := h.dis t
        rcases ih (p t + 1) with ⟨h3, _⟩ | ⟨_, h3⟩
        · rw [hs] at h3; obtain ⟨c, hc⟩ := h3; exact absurd hc (hd c)
        · rw [hs] at h3; omega
      · have h3 : i - 1 ≠ p t := fun hh => h2 (by rw [← hh]; ring)
        rw [h.other t _ h3, h.other t _ h1, cnt_succ_ne (fun hh => h3 hh.symm),
          cnt_succ_ne (fun hh => h1 hh.symm)]
        exact ih i

/-- Going around the ring. -/
theorem ring_induction {P : ZMod n → Prop} (h0 : ∃ i, P i) (h : ∀ i, P i → P (i + 1)) :
    ∀ i, P i := by
  obtain ⟨i0, h0⟩ := h0
  have key : ∀ k : ℕ, P (i0 + k) := by
    intro k
    induction k with
    | zero => simpa using h0
    | succ k ih => have := h _ ih; push_cast; rwa [← add_assoc]
  intro i
  have := key (i - i0).val
  rw [ZMod.natCast_zmod_val] at this
  simpa using this

theorem Run.unbounded (hn : 2 ≤ n) {f : ZMod n → V → V → V → Prop} (hsd : SelfDisabling f)
    {e : ℕ → ZMod n → V} {p : ℕ → ZMod n} (h : Run f e p) : ∀ i k, ∃ t, k ≤ cnt p t i := by
  apply ring_induction (P := fun i => ∀ k, ∃ t, k ≤ cnt p t i)
  · obtain ⟨i, hi⟩ := Finite.exists_infinite_fiber p
    refine ⟨i, fun k => ?_⟩
    have hinf : {s | p s = i}.Infinite := Set.infinite_coe_iff.1 hi
    exact ⟨Nat.nth (fun s => p s = i) k, (Nat.count_nth_of_infinite hinf k).ge⟩
  · intro i hi k
    obtain ⟨t, ht⟩ := hi (k + 1)
    refine ⟨t, ?_⟩
    have := h.inv hn hsd t (i + 1)
    have hs : i + 1 - 1 = i := by ring
    rw [hs] at this
    rcases this with ⟨_, h⟩ | ⟨_, h⟩ <;> omega

/-- Each process acts for the `k`-th time at some time. -/
theorem acts_at {p : ℕ → ZMod n} {i : ZMod n} (h : ∀ k, ∃ t, k ≤ cnt p t i) (k : ℕ) :
    ∃ t, p t = i ∧ cnt p t i = k := by
  classical
  have hex := h (k + 1)
  have hspec := Nat.find_spec hex
  obtain ⟨s, hs⟩ : ∃ s, Nat.find hex = s + 1 := by
    cases hf : Nat.find hex with
    | zero => rw [hf, cnt_zero] at hspec; omega
    | succ s => exact ⟨s, rfl⟩
  rw [hs] at hspec
  have hlt : ¬ k + 1 ≤ cnt p s i := Nat.find_min hex (by omega)
  by_cases hp : p s = i
  · rw [cnt_succ_self hp] at hspec
    exact ⟨s, hp, by omega⟩
  · rw [cnt_succ_ne hp] at hspec
    omega

/-- Values of collision-free rings, by process and number of actions. -/
structure Tiling (f : ZMod n → V → V → V → Prop) (δ : ZMod n → ℕ) (v : ZMod n → ℕ → V) : Prop where
  le : ∀ i, δ i ≤ 1
  en : ∀ i a b, a + δ i = b + 1 → f i (v (i - 1) a) (v i b) (v i (b + 1))
  dis : ∀ i a b, a + δ i = b → ∀ c, ¬ f i (v (i - 1) a) (v i b) c
  some_on : ∃ i, δ i = 1
  some_off : ∃ i, δ i = 0

theorem Run.const (hn : 2 ≤ n) {f : ZMod n → V → V → V → Prop} {e : ℕ → ZMod n → V} {p : ℕ → ZMod n}
    (h : Run f e p) (i : ZMod n) {s t : ℕ} (hst : s ≤ t) (hc : cnt p s i = cnt p t i) :
    e s i = e t i := by
  induction t, hst using Nat.le_induction with
  | base => rfl
  | succ t hst ih =>
    have h1 := cnt_mono p i hst
    by_cases hp : p t = i
    · rw [cnt_succ_self hp] at hc; omega
    · rw [cnt_succ_ne hp] at hc
      rw [ih hc, h.other t i (fun hh => hp hh.symm)]

/-- The tiling of a collision-free execution. -/
theorem Run.tiling (hn : 2 ≤ n) {f : ZMod n → V → V → V → Prop} (hsd : SelfDisabling f)
    {e : ℕ → ZMod n → V} {p : ℕ → ZMod n} (h : Run f e p) :
    ∃ v, Tiling f (del f (e 0)) v ∧ ∀ t i, e t i = v i (cnt p t i) := by
  have hub := h.unbounded hn hsd
  choose τ hτ1 hτ2 using fun i k => acts_at (hub i) k
  have hv : ∀ t i, e t i = e (τ i (cnt p t i)) i := by
    intro t i
    rcases le_total t (τ i (cnt p t i)) with hle | hle
    · exact h.const hn i hle (hτ2 i _).symm
    · exact (h.const hn i hle (hτ2 i _)).symm
  refine ⟨fun i k => e (τ i k) i, ⟨del_le f _, ?_, ?_, ?_, ?_⟩, hv⟩
  · intro i a b hab
    have hact := h.act (τ i b)
    rw [hτ1] at hact
    have h1 : e (τ i b + 1) i = e (τ i (b + 1)) i := by
      have := hv (τ i b + 1) i
      rw [cnt_succ_self (hτ1 i b), hτ2] at this
      exact this
    have h2 : e (τ i b) (i - 1) = e (τ (i - 1) a) (i - 1) := by
      have hinv := h.inv hn hsd (τ i b) i
      have hcnt : cnt p (τ i b) (i - 1) = a := by
        rcases hinv with ⟨_, h3⟩ | ⟨h3, _⟩
        · rw [hτ2] at h3; omega
        · exact absurd hact (h3 _)
      have := hv (τ i b) (i - 1)
      rw [hcnt] at this
      exact this
    rw [h1, h2] at hact
    exact hact
  · intro i a b hab
    -- just after the `a`-th action of the predecessor or, for `b > 0`, after the action of `i`
    cases b with
    | zero =>
      have ha : a = 0 := by omega
      have hd : del f (e 0) i = 0 := by omega
      subst ha
      have h1 := hv 0 (i - 1)
      have h2 := hv 0 i
      rw [cnt_zero] at h1 h2
      simp only [← h1, ← h2]
      unfold del at hd
      intro c hc
      rw [if_pos ⟨c, hc⟩] at hd
      omega
    | succ b =>
      have hact := h.act (τ i b)
      rw [hτ1] at hact
      have h1 : e (τ i b + 1) i = e (τ i (b + 1)) i := by
        have := hv (τ i b + 1) i
        rw [cnt_succ_self (hτ1 i b), hτ2] at this
        exact this
      have h2 : e (τ i b) (i - 1) = e (τ (i - 1) a) (i - 1) := by
        have hinv := h.inv hn hsd (τ i b) i
        have hcnt : cnt p (τ i b) (i - 1) = a := by
          rcases hinv with ⟨_, h3⟩ | ⟨h3, _⟩
          · rw [hτ2] at h3; omega
          · exact absurd hact (h3 _)
        have := hv (τ i b) (i - 1)
        rw [hcnt] at this
        exact this
      rw [h1, h2] at hact
      exact hsd _ _ _ _ hact
  · refine ⟨p 0, ?_⟩
    unfold del
    rw [if_pos ⟨_, h.act 0⟩]
  · refine ⟨p 0 + 1, ?_⟩
    unfold del
    rw [if_neg]
    have hs : p 0 + 1 - 1 = p 0 := by ring
    rw [hs]
    exact not_exists.2 (h.dis 0)

/-- Action counts that occur without collision. -/
def Valid (δ K : ZMod n → ℕ) : Prop := ∀ i, K i ≤ K (i - 1) + δ i ∧ K (i - 1) + δ i ≤ K i + 1

/-- The ring state at given action counts. -/
def stateAt (v : ZMod n → ℕ → V) (K : ZMod n → ℕ) : ZMod n → V := fun i => v i (K i)

theorem valid_zero {δ : ZMod n → ℕ} (h : ∀ i, δ i ≤ 1) : Valid δ 0 := by
  intro i; simp only [Pi.zero_apply]; have := h i; omega

theorem Run.valid (hn : 2 ≤ n) {f : ZMod n → V → V → V → Prop} (hsd : SelfDisabling f) {e : ℕ → ZMod n → V}
    {p : ℕ → ZMod n} (h : Run f e p) (t : ℕ) : Valid (del f (e 0)) (cnt p t) := by
  intro i
  rcases h.inv hn hsd t i with ⟨_, h⟩ | ⟨_, h⟩ <;> omega

theorem sum_pred (K : ZMod n → ℕ) : ∑ i, K (i - 1) = ∑ i, K i :=
  Fintype.sum_equiv (Equiv.subRight (1 : ZMod n)) _ _ (fun _ => rfl)

/-- Some process is enabled. -/
theorem Tiling.exists_enabled {f : ZMod n → V → V → V → Prop} {δ : ZMod n → ℕ} {v : ZMod n → ℕ → V}
    (h : Tiling f δ v) {K : ZMod n → ℕ} (hK : Valid δ K) : ∃ i, K (i - 1) + δ i = K i + 1 := by
  by_contra hc
  push Not at hc
  have h1 : ∀ i, K (i - 1) + δ i = K i := by
    intro i; have := hK i; have := hc i; omega
  have h2 : ∑ i, (K (i - 1) + δ i) = ∑ i, K i := Finset.sum_congr rfl fun i _ => h1 i
  rw [Finset.sum_add_distrib, sum_pred] at h2
  obtain ⟨i, hi⟩ := h.some_on
  have h3 : δ i ≤ ∑ i, δ i := Finset.single_le_sum (fun _ _ => Nat.zero_le _) (Finset.mem_univ i)
  omega

/-- Some process is disabled. -/
theorem Tiling.exists_disabled {f : ZMod n → V → V → V → Prop} {δ : ZMod n → ℕ} {v : ZMod n → ℕ → V}
    (h : Tiling f δ v) {K : ZMod n → ℕ} (hK : Valid δ K) : ∃ i, K (i - 1) + δ i = K i := by
  by_contra hc
  push Not at hc
  have h1 : ∀ i, K (i - 1) + δ i = K i + 1 := by
    intro i; have := hK i; have := hc i; omega
  have h2 : ∑ i, (K (i - 1) + δ i) = ∑ i, (K i + 1) := Finset.sum_congr rfl fun i _ => h1 i
  rw [Finset.sum_add_distrib, Finset.sum_add_distrib, sum_pred] at h2
  obtain ⟨i, hi⟩ := h.some_off
  have h3 : ∑ i, δ i < ∑ _i : ZMod n, 1 :=
    Finset.sum_lt_sum (fun i _ => h.le i) ⟨i, Finset.mem_univ i, by omega⟩
  omega

theorem Tiling.enabled_iff {f : ZMod n → V → V → V → Prop} {δ : ZMod n → ℕ} {v : ZMod n → ℕ → V}
    (h : Tiling f δ v) {K : ZMod n → ℕ} (hK : Valid δ K) (i : ZMod n) :
    (∀ c, ¬ f i (stateAt v K (i - 1)) (stateAt v K i) c) ↔ K (i - 1) + δ i = K i := by
  constructor
  · intro hf
    by_contra hc
    have := hK i
    have h1 := h.en i (K (i - 1)) (K i) (by omega)
    exact hf _ h1
  · intro hc
    exact h.dis i _ _ hc

/-- An enabled process whose successor is disabled may act. -/
theorem Tiling.move (hn : 2 ≤ n) {f : ZMod n → V → V → V → Prop} {δ : ZMod n → ℕ} {v : ZMod n → ℕ → V}
    (h : Tiling f δ v) {K : ZMod n → ℕ} (hK : Valid δ K) {i : ZMod n}
    (h1 : K (i - 1) + δ i = K i + 1) (h2 : K i + δ (i + 1) = K (i + 1)) :
    Valid δ (Function.update K i (K i + 1)) ∧
    f i (stateAt v K (i - 1)) (stateAt v K i) (v i (K i + 1)) ∧
    stateAt v (Function.update K i (K i + 1)) = Function.update (stateAt v K) i (v i (K i + 1)) := by
  have hpred : ∀ j : ZMod n, j - 1 ≠ j := by
    intro j hj
    exact one_ne_zero_zmod hn (sub_eq_self.1 hj)
  refine ⟨?_, h.en i _ _ h1, ?_⟩
  · intro j
    by_cases hj : j = i
    · subst hj
      rw [Function.update_self, Function.update_of_ne (hpred j)]
      omega
    · by_cases hj2 : j = i + 1
      · subst hj2
        have hs : i + 1 - 1 = i := by ring
        rw [hs, Function.update_self, Function.update_of_ne hj]
        omega
      · have : j - 1 ≠ i := fun hh => hj2 (by rw [← hh]; ring)
        rw [Function.update_of_ne this, Function.update_of_ne hj]
        exact hK j
  · funext j
    unfold stateAt
    by_cases hj : j = i
    · subst hj; simp
    · simp [Function.update_of_ne hj]

/-- Any later counts can be reached. -/
theorem Tiling.reach (hn : 2 ≤ n) {f : ZMod n → V → V → V → Prop} {δ : ZMod n → ℕ} {v : ZMod n → ℕ → V}
    (h : Tiling f δ v) {K' : ZMod n → ℕ} (hK' : Valid δ K') :
    ∀ (m : ℕ) (K : ZMod n → ℕ), Valid δ K → (∀ i, K i ≤ K' i) → ∑ i, K' i = ∑ i, K i + m →
      Relation.ReflTransGen (RStep f) (stateAt v K) (stateAt v K') := by
  intro m
  induction m with
  | zero =>
    intro K hK hle hsum
    have : K = K' := by
      funext i
      have := (Finset.sum_eq_sum_iff_of_le (fun i _ => hle i)).1 (by simpa using hsum.symm)
      exact this i (Finset.mem_univ i)
    rw [this]
  | succ m ih =>
    intro K hK hle hsum
    -- an enabled process that is behind
    have hD : ∃ i, K i < K' i := by
      by_contra hc
      push Not at hc
      have : ∑ i, K' i ≤ ∑ i, K i := Finset.sum_le_sum fun i _ => hc i
      omega
    have hex : ∃ i, K i < K' i ∧ K (i - 1) + δ i = K i + 1 := by
      by_contra hc
      push Not at hc
      have hall : ∀ i, K (-i) < K' (-i) := by
        apply ring_induction (P := fun i => K (-i) < K' (-i))
        · obtain ⟨i, hi⟩ := hD; exact ⟨-i, by simpa using hi⟩
        · intro i hi
          have h1 := hc _ hi
          have h2 := hK (-i)
          have h3 := hK' (-i)
          have hs : -(i + 1) = -i - 1 := by ring
          rw [hs]; omega
      obtain ⟨i, hi⟩ := h.exists_enabled hK
      exact hc i (by simpa using hall (-i)) hi
    have hex2 : ∃ i, K i < K' i ∧ K (i - 1) + δ i = K i + 1 ∧ K i + δ (i + 1) = K (i + 1) := by
      by_contra hc
      push Not at hc
      have hall : ∀ i, K i < K' i ∧ K (i - 1) + δ i = K i + 1 := by
        apply ring_induction
        · exact hex
        · rintro i ⟨h1, h2⟩
          have h3 := hc i h1 h2
          have h4 := hK (i + 1)
          have h5 := hK' (i + 1)
          have hs : i + 1 - 1 = i := by ring
          rw [hs] at h4 h5 ⊢
          omega
      obtain ⟨i, hi⟩ := h.exists_disabled hK
      have := (hall i).2
      omega
    obtain ⟨i, h1, h2, h3⟩ := hex2
    obtain ⟨h4, h5, h6⟩ := h.move hn hK h2 h3
    refine Relation.ReflTransGen.head ⟨i, _, h5, h6⟩ (ih _ h4 ?_ ?_)
    · intro j
      by_cases hj : j = i
      · subst hj; rw [Function.update_self]; omega
      · rw [Function.update_of_ne hj]; exact hle j
    · have : ∑ j, Function.update K i (K i + 1) j = ∑ j, K j + 1 := by
        rw [Finset.sum_update_of_mem (Finset.mem_univ i),
          ← Finset.add_sum_erase Finset.univ K (Finset.mem_univ i), Finset.sdiff_singleton_eq_erase]
        omega
      omega

/-- A valid count vector starts an infinite execution. -/
theorem Tiling.rexec (hn : 2 ≤ n) {f : ZMod n → V → V → V → Prop} {δ : ZMod n → ℕ} {v : ZMod n → ℕ → V}
    (h : Tiling f δ v) : ∃ e : ℕ → ZMod n → V, RExec f e ∧ e 0 = stateAt v 0 := by
  have hstep : ∀ K : {K // Valid δ K}, ∃ K' : {K // Valid δ K},
      RStep f (stateAt v K.1) (stateAt v K'.1) := by
    rintro ⟨K, hK⟩
    have hex : ∃ i, K (i - 1) + δ i = K i + 1 ∧ K i + δ (i + 1) = K (i + 1) := by
      by_contra hc
      push Not at hc
      have hall : ∀ i, K (i - 1) + δ i = K i + 1 := by
        apply ring_induction
        · exact h.exists_enabled hK
        · intro i hi
          have h3 := hc i hi
          have h4 := hK (i + 1)
          have hs : i + 1 - 1 = i := by ring
          rw [hs] at h4 ⊢
          omega
      obtain ⟨i, hi⟩ := h.exists_disabled hK
      have := hall i
      omega
    obtain ⟨i, h1, h2⟩ := hex
    obtain ⟨h4, h5, h6⟩ := h.move hn hK h1 h2
    exact ⟨⟨_, h4⟩, i, _, h5, h6⟩
  choose g hg using hstep
  refine ⟨fun t => stateAt v (g^[t] ⟨0, valid_zero h.le⟩).1, ?_, rfl⟩
  intro t
  simp only [Function.iterate_succ_apply']
  exact hg _

/-- **Livelocks are tilings.** -/
theorem livelock_iff_tiling (hn : 2 ≤ n) {f : ZMod n → V → V → V → Prop} (hsd : SelfDisabling f) :
    HasLivelock f ↔ ∃ (δ : ZMod n → ℕ) (v : ZMod n → ℕ → V), Tiling f δ v := by
  constructor
  · rintro ⟨e, he⟩
    obtain ⟨T, p, hp⟩ := exists_run hn hsd he
    obtain ⟨v, hv, _⟩ := hp.tiling hn hsd
    exact ⟨_, v, hv⟩
  · rintro ⟨δ, v, h⟩
    obtain ⟨e, he, _⟩ := h.rexec hn
    exact ⟨e, he⟩

end Verif.Model
