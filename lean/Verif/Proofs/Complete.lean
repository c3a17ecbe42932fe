import Verif.Proofs.Revise
import Mathlib.Tactic.Ring

/-!
Lemmas for property C79: the search ends and is exhaustive, from a contract on its parts.
-/

set_option linter.unusedSectionVars false

namespace Verif.Proofs
open Verif.Model

universe u v
variable {γ : Type u} {α : Type v}

/-- The contract on the parts of the search, on top of `RevCert`. -/
structure FindCert (env : SearchEnv γ α) (Sol : Finset ℕ → Prop) (V Stop : γ → Prop)
    (W0 W : ℕ → SInst α → Prop) (Red : ℕ → SInst α → ℕ → Prop) (Act : ℕ → Prop) : Prop where
  rev : RevCert env Sol V Stop W0 W Red Act
  done : ∀ g, V g → V (env.done g).1 ∧ (Stop g → (env.done g).2 = true) ∧
    ((env.done g).2 = true → Stop (env.done g).1)
  verify : env.verifyFound = true
  whole : ∀ i x, W i x → x.noPartial = false
  mrv : ∀ g ps, V g → (∀ (i : ℕ) (x : SInst α), ps.insts[i]? = some x → W i x) → deadlocksCk env ps = true →
    ∃ g' a, env.pickMRV g ps = (g', some a) ∧ V g' ∧ ∃ x ∈ ps.insts, a ∈ env.candidates x.rest
  small : ∀ g ps, V g → (∀ p ∈ ps.picks, Act p) → (Stop g ∨ ∀ T, Sol T → ps.picks.toFinset ⊆ T → False) →
    V (env.addSmall ps g)
  smallStop : ∀ g ps, Stop g → Stop (env.addSmall ps g)
  conf : ∀ g l, V g → env.conflictCk g l = true → ∀ T, Sol T → l.toFinset ⊆ T → False
  none : ∀ g, V g → (∀ T, ¬ Sol T) → V (env.addConflict [] g)
  stab : ∀ i x, W i x → env.deadlock x.rest = false →
    (env.stab i x.actions).ok = true ∧ 0 < (env.stab i x.actions).nlayers

variable {env : SearchEnv γ α} {Sol : Finset ℕ → Prop} {V Stop : γ → Prop} {W0 W : ℕ → SInst α → Prop}
  {Red : ℕ → SInst α → ℕ → Prop} {Act : ℕ → Prop}

/-- A partial solution from which every solution that contains its picks can still be found. -/
structure NodeOk (env : SearchEnv γ α) (Sol : Finset ℕ → Prop) (W : ℕ → SInst α → Prop)
    (Red : ℕ → SInst α → ℕ → Prop) (Act : ℕ → Prop) (n : ℕ) (ps : PSyn α) : Prop where
  len : ps.insts.length = n
  w : ∀ (i : ℕ) (x : SInst α), ps.insts[i]? = some x → W i x
  same : SameActs ps.insts
  act : ∀ (i : ℕ) (x : SInst α), ps.insts[i]? = some x → ∀ e ∈ env.candidates x.rest, Act e
  fits : ∀ T, Sol T → ps.picks.toFinset ⊆ T → FitsAll env Red T ps.insts
  picked : ∀ x ∈ ps.insts, ps.picks.toFinset ⊆ x.actions.toFinset

/-- Is `a` a candidate in some instance? -/
def IsCand (env : SearchEnv γ α) (ps : PSyn α) (a : ℕ) : Prop := ∃ x ∈ ps.insts, a ∈ env.candidates x.rest

/-- Revising with a candidate as addition or deletion leaves fewer candidates. -/
theorem candSum_lt {L L' : List (SInst α)} {B : Finset ℕ} (hl : L'.length = L.length) {a : ℕ} (ha : a ∈ B)
    (hc : ∃ x ∈ L, a ∈ env.candidates x.rest)
    (hs : ∀ (i : ℕ) (x y : SInst α), L[i]? = some x → L'[i]? = some y → candSet env y ⊆ candSet env x \ B) :
    candSum env L' < candSum env L := by
  obtain ⟨x, hx, hax⟩ := hc
  obtain ⟨i, hi⟩ := List.getElem?_of_mem hx
  have hil : i < L.length := (List.getElem?_eq_some_iff.1 hi).1
  unfold candSum
  rw [hl]
  apply Finset.sum_lt_sum
  · intro k hk
    rw [Finset.mem_range] at hk
    rw [List.getElem?_eq_getElem hk, List.getElem?_eq_getElem (hl ▸ hk)]
    exact Finset.card_le_card ((hs k _ _ (List.getElem?_eq_getElem hk) (List.getElem?_eq_getElem (hl ▸ hk))).trans
      Finset.sdiff_subset)
  · refine ⟨i, Finset.mem_range.2 hil, ?_⟩
    have h1 := hs i x _ hi (List.getElem?_eq_getElem (hl ▸ hil))
    rw [hi, List.getElem?_eq_getElem (hl ▸ hil)]
    refine Finset.card_lt_card ⟨h1.trans Finset.sdiff_subset, fun h2 => ?_⟩
    have h3 := h1 (h2 (List.mem_toFinset.2 hax))
    exact (Finset.mem_sdiff.1 h3).2 ha

/-- `revise_actions` on a good partial solution. -/
theorem node_revise (C : FindCert env Sol V Stop W0 W Red Act) {n : ℕ} (hn : n ≤ 2) {g : γ} {ps : PSyn α} (hV : V g)
    (h : NodeOk env Sol W Red Act n ps) {A D : Finset ℕ} (hA : ∀ e ∈ A, Act e) {picks : List ℕ} {level : ℕ}
    (hp : ∀ T, Sol T → picks.toFinset ⊆ T → ps.picks.toFinset ⊆ T ∧ A ⊆ T ∧ ∀ d ∈ D, d ∉ T)
    (hpA : picks.toFinset ⊆ ps.picks.toFinset ∪ A) (hne : ps.insts ≠ []) {a : ℕ}
    (ha : a ∈ A ∪ D) (hc : IsCand env ps a) {fuel : ℕ} (hfuel : candSum env ps.insts < fuel) :
    ∃ g' ok ps' m, reviseActions env fuel g ⟨level, picks, ps.insts⟩ A D = some (g', ok, ps', m) ∧ V g' ∧
      ps'.picks = picks ∧ ps'.level = level ∧
      (ok = false → LeftOk W0 n ps'.insts ∧ (Stop g' ∨ ∀ T, Sol T → picks.toFinset ⊆ T → False)) ∧
      (ok = true → NodeOk env Sol W Red Act n ps' ∧ candSum env ps'.insts < candSum env ps.insts) := by
  obtain ⟨g', ok, ps', m, h1, h2, h3, h4, h5, h6⟩ := revActions C.rev (g := g) (ps := ⟨level, picks, ps.insts⟩)
    (A := A) (D := D) (by rw [h.len]; exact hn) hV (fun i x hx => C.rev.weaken _ _ (h.w i x hx)) h.same hA
    (fun i x hx e he => h.act i x hx e (List.mem_toFinset.1 (Finset.mem_sdiff.1 he).1)) hfuel
  refine ⟨g', ok, ps', m, h1, h2, h3, h4, ?_, ?_⟩
  · intro hok
    obtain ⟨z1, z2⟩ := h5 hok
    refine ⟨h.len ▸ z1, z2.imp_right fun z2 T hT hpT => ?_⟩
    obtain ⟨q1, q2, q3⟩ := hp T hT hpT
    exact z2 T hT (h.fits T hT q1) q2 q3
  · intro hok
    obtain ⟨e1, e2, ⟨S, hSA, hSL, hS⟩, e4, e5⟩ := h6 hok
    refine ⟨⟨e1.trans h.len, e2, ⟨S, hS⟩, ?_, ?_, ?_⟩, candSum_lt e1 ha hc e4⟩
    · intro i y hy e he
      have hil : i < ps'.insts.length := (List.getElem?_eq_some_iff.1 hy).1
      have hx : ps.insts[i]? = some _ := List.getElem?_eq_getElem (e1 ▸ hil)
      have := e4 i _ y hx hy (List.mem_toFinset.2 he)
      exact h.act i _ hx e (List.mem_toFinset.1 (Finset.mem_sdiff.1 this).1)
    · intro T hT hpT
      rw [h3] at hpT
      obtain ⟨q1, q2, q3⟩ := hp T hT hpT
      exact e5 T hT (h.fits T hT q1) q2 q3
    · intro x hx
      rw [h3, hS x hx]
      obtain ⟨y, hy⟩ := List.exists_mem_of_ne_nil _ hne
      exact hpA.trans (Finset.union_subset ((h.picked y hy).trans (hSL y hy)) hSA)

/-- The candidates left at level `k`. -/
def candAt (env : SearchEnv γ α) (stack : List (PSyn α)) (k : ℕ) : ℕ :=
  match stack[k]? with
  | some ps => candSum env ps.insts
  | none => 0

/-- The stack of the search up to level `idx`. -/
structure PathOk (env : SearchEnv γ α) (Sol : Finset ℕ → Prop) (W : ℕ → SInst α → Prop)
    (Red : ℕ → SInst α → ℕ → Prop) (Act : ℕ → Prop) (n c0 : ℕ) (stack : List (PSyn α)) (idx : ℕ) : Prop where
  lt : idx < stack.length
  node : ∀ k ps, k ≤ idx → stack[k]? = some ps → NodeOk env Sol W Red Act n ps ∧ ps.level = k ∧
    candSum env ps.insts + k ≤ c0
  root : ∀ ps, stack[0]? = some ps → ps.picks = []
  chain : ∀ k ps ps', k < idx → stack[k]? = some ps → stack[k + 1]? = some ps' →
    ∃ p, ps'.picks = ps.picks ++ [p] ∧ IsCand env ps p

/-- The number of rounds the search can still make. -/
def weight (env : SearchEnv γ α) (stack : List (PSyn α)) (idx : ℕ) : ℕ :=
  3 ^ candAt env stack idx + ∑ k ∈ Finset.range idx, 3 ^ (candAt env stack k - 1)

theorem PathOk.down {n c0 : ℕ} {stack : List (PSyn α)} {idx k : ℕ} (h : PathOk env Sol W Red Act n c0 stack idx)
    (hk : k ≤ idx) : PathOk env Sol W Red Act n c0 stack k :=
  ⟨lt_of_le_of_lt hk h.lt, fun j ps hj => h.node j ps (hj.trans hk), h.root,
    fun j ps ps' hj => h.chain j ps ps' (lt_of_lt_of_le hj hk)⟩

/-- The picks on the path may be added. -/
theorem PathOk.acts {n c0 : ℕ} {stack : List (PSyn α)} {idx : ℕ} (h : PathOk env Sol W Red Act n c0 stack idx) :
    ∀ k ps, k ≤ idx → stack[k]? = some ps → ∀ p ∈ ps.picks, Act p := by
  intro k
  induction k with
  | zero => intro ps _ hps p hp; rw [h.root ps hps] at hp; simp at hp
  | succ k ih =>
    intro ps hk hps p hp
    obtain ⟨q, hq⟩ : ∃ q, stack[k]? = some q :=
      ⟨_, List.getElem?_eq_getElem (lt_of_lt_of_le (Nat.lt_of_succ_le hk) h.lt.le)⟩
    obtain ⟨a, h1, x, hx, hax⟩ := h.chain k q ps (Nat.lt_of_succ_le hk) hq hps
    rw [h1, List.mem_append, List.mem_singleton] at hp
    rcases hp with hp | rfl
    · exact ih q (by omega) hq p hp
    · obtain ⟨i, hi⟩ := List.getElem?_of_mem hx
      exact (h.node k q (by omega) hq).1.act i x hi p hax

/-- Replacing the top by one with fewer candidates and the same picks. -/
theorem PathOk.setTop {n c0 : ℕ} {stack : List (PSyn α)} {idx : ℕ} (h : PathOk env Sol W Red Act n c0 stack idx)
    {ps ps' : PSyn α} (hps : stack[idx]? = some ps) (hok : NodeOk env Sol W Red Act n ps')
    (hl : ps'.level = ps.level) (hp : ps'.picks = ps.picks)
    (hc : candSum env ps'.insts < candSum env ps.insts) :
    PathOk env Sol W Red Act n c0 (stack.set idx ps') idx := by
  have hget : ∀ k, (stack.set idx ps')[k]? = if idx = k then some ps' else stack[k]? := by
    intro k
    rw [List.getElem?_set]
    by_cases hk : idx = k
    · subst hk
      rw [if_pos rfl, if_pos rfl, if_pos h.lt]
    · rw [if_neg hk, if_neg hk]
  obtain ⟨q1, q2, q3⟩ := h.node idx ps (Nat.le_refl _) hps
  refine ⟨by rw [List.length_set]; exact h.lt, ?_, ?_, ?_⟩
  · intro k q hk hq
    rw [hget] at hq
    split at hq
    · next e =>
      cases hq
      refine ⟨hok, by rw [hl, q2, e], by omega⟩
    · exact h.node k q hk hq
  · intro q hq
    rw [hget] at hq
    split at hq
    · next e =>
      cases hq
      rw [hp]; exact h.root ps (e ▸ hps)
    · exact h.root q hq
  · intro k q q' hk hq hq'
    rw [hget] at hq hq'
    rw [if_neg (by omega)] at hq
    split at hq'
    · next e =>
      cases hq'
      rw [hp]
      exact h.chain k q ps hk hq (e ▸ hps)
    · exact h.chain k q q' hk hq hq'

theorem candAt_set {stack : List (PSyn α)} {idx : ℕ} {ps : PSyn α} (h : idx < stack.length) (k : ℕ) :
    candAt env (stack.set idx ps) k = if idx = k then candSum env ps.insts else candAt env stack k := by
  unfold candAt
  rw [List.getElem?_set]
  by_cases hk : idx = k
  · subst hk
    rw [if_pos rfl, if_pos rfl, if_pos h]
  · rw [if_neg hk, if_neg hk]

theorem candAt_eq {stack : List (PSyn α)} {idx : ℕ} {ps : PSyn α} (h : stack[idx]? = some ps) :
    candAt env stack idx = candSum env ps.insts := by unfold candAt; rw [h]

theorem candSum_pos {ps : PSyn α} {a : ℕ} (h : IsCand env ps a) : 0 < candSum env ps.insts := by
  obtain ⟨x, hx, ha⟩ := h
  obtain ⟨i, hi⟩ := List.getElem?_of_mem hx
  have hil : i < ps.insts.length := (List.getElem?_eq_some_iff.1 hi).1
  unfold candSum
  apply Finset.sum_pos'
  · intro k _; exact Nat.zero_le _
  · refine ⟨i, Finset.mem_range.2 hil, ?_⟩
    rw [hi]
    exact Finset.card_pos.2 ⟨a, List.mem_toFinset.2 ha⟩

/-- The ring `stack` holds the last nodes of the path up to level `top`; `idx` is the place of the last one. -/
structure RingOk (env : SearchEnv γ α) (path : List (PSyn α)) (top : ℕ) (stack : List (PSyn α)) (idx : ℕ) :
    Prop where
  cur : stack[idx]? = path[top]?
  levelMod : ∀ (j : ℕ) (ps : PSyn α), stack[j]? = some ps → ps.level % stack.length = j
  levelEq : env.maxHeight = 0 ∨ stack.length ≤ env.maxHeight →
    ∀ (j : ℕ) (ps : PSyn α), stack[j]? = some ps → ps.level = j
  fresh : ∀ (j : ℕ) (ps : PSyn α), stack[j]? = some ps → top < ps.level + stack.length
  old : ∀ (j : ℕ) (ps : PSyn α), stack[j]? = some ps → ps.level ≤ top → path[ps.level]? = some ps

theorem get_set {β : Type v} {l : List β} {k : ℕ} (hk : k < l.length) (x : β) {j : ℕ} {y : β}
    (h : (l.set k x)[j]? = some y) : (j = k ∧ y = x) ∨ (j ≠ k ∧ l[j]? = some y) := by
  rw [List.getElem?_set] at h
  by_cases hij : k = j
  · rw [if_pos hij, if_pos hk, Option.some.injEq] at h
    exact .inl ⟨hij.symm, h.symm⟩
  · rw [if_neg hij] at h
    exact .inr ⟨Ne.symm hij, h⟩

/-- The place of the previous level. -/
theorem RingOk.prev {path stack : List (PSyn α)} {top idx : ℕ} (h : RingOk env path top stack idx) {ps prev : PSyn α}
    (hps : stack[idx]? = some ps) (hl : ps.level = top) (hp : stack[decmod idx stack.length]? = some prev) :
    (prev.level < top → prev.level + 1 = top) ∧ (top ≤ prev.level → env.maxHeight = 0 → top = 0) := by
  have hlen : idx < stack.length := (List.getElem?_eq_some_iff.1 hps).1
  have e1 := h.levelMod idx ps hps
  have e2 := h.levelMod _ prev hp
  rw [hl] at e1
  constructor
  · intro hlt
    have hf := h.fresh _ prev hp
    have e3 : (top - 1) % stack.length = prev.level % stack.length := by
      rw [e2]
      unfold decmod
      rw [← e1, show top % stack.length + stack.length - 1 = top % stack.length + (stack.length - 1) by omega,
        Nat.mod_add_mod, show top + (stack.length - 1) = top - 1 + stack.length by omega, Nat.add_mod_right]
    have e4 := Nat.sub_mod_eq_zero_of_mod_eq e3
    rw [Nat.mod_eq_of_lt (by omega)] at e4
    omega
  · intro hle hm
    have e3 := h.levelEq (.inl hm) _ prev hp
    have e4 := h.levelEq (.inl hm) idx ps hps
    rw [hl] at e4
    rcases Nat.eq_zero_or_pos top with h0 | h0
    · exact h0
    · unfold decmod at e3
      rw [show idx + stack.length - 1 = idx - 1 + stack.length by omega, Nat.add_mod_right,
        Nat.mod_eq_of_lt (by omega)] at e3
      omega

/-- Spoiling the last node and going back one level. -/
theorem RingOk.back {path stack : List (PSyn α)} {top idx : ℕ} (h : RingOk env path (top + 1) stack idx)
    {ps ps' prev : PSyn α} (hps : stack[idx]? = some ps) (hl : ps.level = top + 1) (hl' : ps'.level = top + 1)
    {k : ℕ} (hp : (stack.set idx ps')[k]? = some prev) (hlv : prev.level = top) :
    RingOk env path top (stack.set idx ps') k ∧ path[top]? = some prev := by
  have hi : idx < stack.length := (List.getElem?_eq_some_iff.1 hps).1
  have hpath : path[top]? = some prev := by
    rcases get_set hi ps' hp with ⟨_, rfl⟩ | ⟨_, h2⟩
    · omega
    · rw [← hlv]; exact h.old _ _ h2 (by omega)
  refine ⟨⟨hp.trans hpath.symm, ?_, ?_, ?_, ?_⟩, hpath⟩
  · intro j q hj
    rw [List.length_set]
    rcases get_set hi ps' hj with ⟨rfl, rfl⟩ | ⟨_, h2⟩
    · rw [hl', ← hl]; exact h.levelMod _ _ hps
    · exact h.levelMod _ _ h2
  · intro hm j q hj
    rw [List.length_set] at hm
    rcases get_set hi ps' hj with ⟨rfl, rfl⟩ | ⟨_, h2⟩
    · rw [hl', ← hl]; exact h.levelEq hm _ _ hps
    · exact h.levelEq hm _ _ h2
  · intro j q hj
    rw [List.length_set]
    rcases get_set hi ps' hj with ⟨rfl, rfl⟩ | ⟨_, h2⟩
    · omega
    · have := h.fresh _ _ h2; omega
  · intro j q hj hle
    rcases get_set hi ps' hj with ⟨rfl, rfl⟩ | ⟨_, h2⟩
    · omega
    · exact h.old _ _ h2 (by omega)

/-- Replacing the last node. -/
theorem RingOk.setTop {path stack : List (PSyn α)} {top idx : ℕ} (h : RingOk env path top stack idx)
    {ps ps' : PSyn α} (hps : stack[idx]? = some ps) (hl : ps.level = top) (hl' : ps'.level = top)
    (htop : top < path.length) : RingOk env (path.set top ps') top (stack.set idx ps') idx := by
  have hi : idx < stack.length := (List.getElem?_eq_some_iff.1 hps).1
  have hP : (path.set top ps')[top]? = some ps' := by rw [List.getElem?_set, if_pos rfl, if_pos htop]
  refine ⟨?_, ?_, ?_, ?_, ?_⟩
  · rw [hP, List.getElem?_set, if_pos rfl, if_pos hi]
  · intro j q hj
    rw [List.length_set]
    rcases get_set hi ps' hj with ⟨rfl, rfl⟩ | ⟨_, h2⟩
    · rw [hl', ← hl]; exact h.levelMod _ _ hps
    · exact h.levelMod _ _ h2
  · intro hm j q hj
    rw [List.length_set] at hm
    rcases get_set hi ps' hj with ⟨rfl, rfl⟩ | ⟨_, h2⟩
    · rw [hl', ← hl]; exact h.levelEq hm _ _ hps
    · exact h.levelEq hm _ _ h2
  · intro j q hj
    rw [List.length_set]
    rcases get_set hi ps' hj with ⟨rfl, rfl⟩ | ⟨_, h2⟩
    · omega
    · exact h.fresh _ _ h2
  · intro j q hj hle
    rcases get_set hi ps' hj with ⟨rfl, rfl⟩ | ⟨hne, h2⟩
    · rw [hl']; exact hP
    · have : q.level ≠ top := by
        intro e
        apply hne
        rw [← h.levelMod _ _ h2, ← h.levelMod _ _ hps, e, hl]
      rw [List.getElem?_set, if_neg (Ne.symm this)]
      exact h.old _ _ h2 hle

/-- Filling the next slot: the ring for the old and for the new last node. -/
theorem RingOk.next {path stack : List (PSyn α)} {top idx : ℕ} (h : RingOk env path top stack idx)
    {ps nxt : PSyn α} (hps : stack[idx]? = some ps) (hl : ps.level = top) (hl' : nxt.level = top + 1)
    (htop : top < path.length) {slot : List (PSyn α) × ℕ} (hslot : slot = nextSlot env stack idx) :
    slot.2 < slot.1.length ∧ RingOk env path top (slot.1.set slot.2 nxt) idx ∧
    (slot.1.set slot.2 nxt)[idx]? = some ps ∧
    RingOk env (path.take (top + 1) ++ [nxt]) (top + 1) (slot.1.set slot.2 nxt) slot.2 := by
  have hi : idx < stack.length := (List.getElem?_eq_some_iff.1 hps).1
  have hget : ∀ k, k ≤ top → (path.take (top + 1) ++ [nxt])[k]? = path[k]? := by
    intro k hk
    rw [List.getElem?_append_left (by rw [List.length_take]; omega), List.getElem?_take, if_pos (by omega)]
  have hnew : (path.take (top + 1) ++ [nxt])[top + 1]? = some nxt := by
    rw [List.getElem?_append_right (by rw [List.length_take]; omega)]
    simp [List.length_take, Nat.min_eq_left (show top + 1 ≤ path.length by omega)]
  have key : ∀ (st' : List (PSyn α)) (k : ℕ), k < st'.length → k ≠ idx → stack.length ≤ st'.length →
      (∀ (j : ℕ), j ≠ k → st'[j]? = stack[j]?) →
      (∀ (j : ℕ) (q : PSyn α), j ≠ k → stack[j]? = some q → q.level % st'.length = j) →
      (top + 1) % st'.length = k →
      (env.maxHeight = 0 ∨ st'.length ≤ env.maxHeight →
        (∀ (j : ℕ) (q : PSyn α), stack[j]? = some q → q.level = j) ∧ k = idx + 1) →
      k < st'.length ∧ RingOk env path top (st'.set k nxt) idx ∧ (st'.set k nxt)[idx]? = some ps ∧
      RingOk env (path.take (top + 1) ++ [nxt]) (top + 1) (st'.set k nxt) k := by
    intro st' k hk hne hle hold hmod hnx heq
    have hc : ∀ (j : ℕ) (q : PSyn α), (st'.set k nxt)[j]? = some q →
        (j = k ∧ q = nxt) ∨ (j ≠ k ∧ stack[j]? = some q) := by
      intro j q hj
      rcases get_set hk nxt hj with h1 | ⟨h1, h2⟩
      · exact .inl h1
      · exact .inr ⟨h1, (hold j h1).symm.trans h2⟩
    have hm1 : ∀ (j : ℕ) (q : PSyn α), (st'.set k nxt)[j]? = some q →
        q.level % (st'.set k nxt).length = j := by
      intro j q hj
      rw [List.length_set]
      rcases hc j q hj with ⟨rfl, rfl⟩ | ⟨hj1, hj⟩
      · rw [hl', hnx]
      · exact hmod j q hj1 hj
    have hm2 : env.maxHeight = 0 ∨ (st'.set k nxt).length ≤ env.maxHeight →
        ∀ (j : ℕ) (q : PSyn α), (st'.set k nxt)[j]? = some q → q.level = j := by
      intro hm j q hj
      rw [List.length_set] at hm
      obtain ⟨e1, e2⟩ := heq hm
      rcases hc j q hj with ⟨rfl, rfl⟩ | ⟨-, hj⟩
      · have := e1 idx ps hps; omega
      · exact e1 j q hj
    have hidx : (st'.set k nxt)[idx]? = some ps := by
      rw [List.getElem?_set, if_neg hne, hold idx (Ne.symm hne), hps]
    refine ⟨hk, ⟨?_, hm1, hm2, ?_, ?_⟩, hidx, ⟨?_, hm1, hm2, ?_, ?_⟩⟩
    · rw [hidx, ← h.cur, hps]
    · intro j q hj
      rw [List.length_set]
      rcases hc j q hj with ⟨rfl, rfl⟩ | ⟨-, hj⟩
      · omega
      · have := h.fresh j q hj; omega
    · intro j q hj hle
      rcases hc j q hj with ⟨rfl, rfl⟩ | ⟨-, hj⟩
      · omega
      · exact h.old j q hj hle
    · rw [hnew, List.getElem?_set, if_pos rfl, if_pos hk]
    · intro j q hj
      rw [List.length_set]
      rcases hc j q hj with ⟨rfl, rfl⟩ | ⟨hj1, hj⟩
      · omega
      · have h3 := h.fresh j q hj
        have h4 : q.level + st'.length ≠ top + 1 := by
          intro e
          apply hj1
          rw [← hmod j q hj1 hj, ← hnx, ← e, Nat.add_mod_right]
        omega
    · intro j q hj hle
      rcases hc j q hj with ⟨rfl, rfl⟩ | ⟨hj1, hj⟩
      · rw [hl']; exact hnew
      · have h4 : q.level ≠ top + 1 := by
          intro e
          apply hj1
          rw [← hmod j q hj1 hj, ← hnx, e]
        rw [hget _ (by omega)]
        exact h.old j q hj (by omega)
  have hmodi := h.levelMod idx ps hps
  rw [hl] at hmodi
  subst hslot
  unfold nextSlot
  split
  · rename_i hm
    have e1 := h.levelEq hm
    have hcl := e1 idx ps hps
    rw [hl] at hcl
    split
    · rename_i hlen
      refine key _ _ (by simp; omega) (by omega) (by simp) ?_ ?_ ?_ (fun _ => ⟨e1, rfl⟩)
      · intro j hj
        rcases Nat.lt_or_ge j stack.length with hj' | hj'
        · rw [List.getElem?_append_left hj']
        · rw [List.getElem?_eq_none hj', List.getElem?_eq_none (by simp; omega)]
      · intro j q _ hj
        obtain ⟨hj', -⟩ := List.getElem?_eq_some_iff.1 hj
        rw [e1 j q hj]
        apply Nat.mod_eq_of_lt
        simp; omega
      · rw [hcl]
        apply Nat.mod_eq_of_lt
        simp; omega
    · rename_i hlen
      refine key stack _ (by omega) (by omega) (le_refl _) (fun _ _ => rfl) (fun j q _ hj => h.levelMod j q hj) ?_
        (fun _ => ⟨e1, rfl⟩)
      rw [hcl]
      apply Nat.mod_eq_of_lt
      omega
  · rename_i hm
    have hm' : env.maxHeight ≠ 0 ∧ env.maxHeight < stack.length := by omega
    refine key _ _ (Nat.mod_lt _ (by omega)) ?_ (le_refl _) (fun _ _ => rfl) (fun j q _ hj => h.levelMod j q hj) ?_
      (fun hc => absurd hc hm)
    · intro he
      rcases Nat.lt_or_ge (idx + 1) stack.length with h3 | h3
      · rw [Nat.mod_eq_of_lt h3] at he; omega
      · have : idx + 1 = stack.length := by omega
        rw [this, Nat.mod_self] at he
        omega
    · rw [← hmodi, Nat.mod_add_mod]

/-- How a failed search may end: told to stop, too deep, without any solution, or after learning the picks of a node
of the search as a conflict. -/
def FailOk (env : SearchEnv γ α) (Sol : Finset ℕ → Prop) (V Stop : γ → Prop) (W0 W : ℕ → SInst α → Prop)
    (Red : ℕ → SInst α → ℕ → Prop) (Act : ℕ → Prop) (n : ℕ) (g : γ) : Prop :=
  V g ∧ (Stop g ∨ 0 < env.maxDepth ∨ (∃ g0, V g0 ∧ g = env.addConflict [] g0 ∧ ∀ T, ¬ Sol T) ∨
    ∃ g0 ps q, V g0 ∧ ¬ Stop g0 ∧ g = env.addSmall ps g0 ∧ LeftOk W0 n ps.insts ∧
      NodeOk env Sol W Red Act n q ∧ q.picks = ps.picks ∧ (∀ T, Sol T → ps.picks.toFinset ⊆ T → False) ∧
      (env.maxHeight = 0 → ps.picks = []))

/-- The backtracking loop. -/
theorem bt_spec (C : FindCert env Sol V Stop W0 W Red Act) {n c0 : ℕ} (hn1 : 1 ≤ n) (hn : n ≤ 2) {fuel : ℕ}
    (hfuel : c0 < fuel) : ∀ (top f : ℕ), top < f → ∀ (g : γ) (path stack : List (PSyn α)) (idx nsum a : ℕ)
    (ps : PSyn α), V g → PathOk env Sol W Red Act n c0 path top → RingOk env path top stack idx →
    path[top]? = some ps → IsCand env ps a → (∀ T, Sol T → (ps.picks ++ [a]).toFinset ⊆ T → False) →
    (∃ g', loopFuel (btBody env fuel) f (⟨g, stack, idx, nsum⟩, a) = some (some (.inl g')) ∧
      FailOk env Sol V Stop W0 W Red Act n g') ∨
    ∃ g' k path' stack' idx' m ps', loopFuel (btBody env fuel) f (⟨g, stack, idx, nsum⟩, a) =
        some (some (.inr ⟨g', stack', idx', m⟩)) ∧
      V g' ∧ k ≤ top ∧ PathOk env Sol W Red Act n c0 path' k ∧ RingOk env path' k stack' idx' ∧ path'[k]? = some ps' ∧
      candSum env ps'.insts < candAt env path k ∧ ∀ j < k, path'[j]? = path[j]? := by
  intro top
  induction top with
  | zero =>
    intro f hf g path stack idx nsum a ps hV hP hR hps ha hno
    obtain ⟨f, rfl⟩ : ∃ f', f = f' + 1 := ⟨f - 1, by omega⟩
    obtain ⟨q1, q2, q3⟩ := hP.node 0 ps (Nat.le_refl _) hps
    obtain ⟨g', ok, ps', m, h1, h2, h3, h4, h5, h6⟩ := node_revise C hn hV q1 (A := ∅) (D := {a})
      (picks := ps.picks) (level := ps.level) (a := a) (by simp) (fun T hT hpT => ⟨hpT, by simp, fun d hd hdT => by
        rw [Finset.mem_singleton] at hd; subst hd
        refine hno T hT ?_
        intro e he
        rw [List.mem_toFinset, List.mem_append, List.mem_singleton] at he
        rcases he with he | rfl
        · exact hpT (List.mem_toFinset.2 he)
        · exact hdT⟩) (by simp) (by
          rintro h
          have := q1.len
          rw [h] at this
          simp at this; omega) (by simp) ha (show candSum env ps.insts < fuel by omega)
    have hcur : stack[idx]? = some ps := hR.cur.trans hps
    have hi : idx < stack.length := (List.getElem?_eq_some_iff.1 hcur).1
    rw [loopFuel]
    unfold btBody
    simp only [hcur]
    rw [show (⟨ps.level, ps.picks, ps.insts⟩ : PSyn α) = ps from rfl] at h1
    rw [h1]
    rcases ok with _ | _
    · obtain ⟨hleft, hno'⟩ := h5 rfl
      simp only
      have hlt : decmod idx (stack.set idx ps').length < (stack.set idx ps').length := by
        unfold decmod
        apply Nat.mod_lt
        rw [List.length_set]; omega
      rw [List.getElem?_eq_getElem hlt]
      simp only
      have hl0 : ps'.level ≤ ((stack.set idx ps')[decmod idx (stack.set idx ps').length]).level := by
        rw [h4, q2]; exact Nat.zero_le _
      rw [if_pos hl0]
      refine .inl ⟨_, rfl, C.small _ _ h2 (by rw [h3]; exact hP.acts 0 ps (Nat.le_refl _) hps) (by rw [h3]; exact hno'), ?_⟩
      by_cases hs : Stop g'
      · exact .inl (C.smallStop _ _ hs)
      · exact .inr (.inr (.inr ⟨g', ps', ps, h2, hs, rfl, hleft, q1, h3.symm, by
          rw [h3]; exact hno'.resolve_left hs, fun _ => by rw [h3]; exact hP.root ps hps⟩))
    · obtain ⟨e1, e2⟩ := h6 rfl
      refine .inr ⟨g', 0, path.set 0 ps', stack.set idx ps', idx, m.getD nsum, ps', rfl, h2, Nat.le_refl _,
        hP.setTop hps e1 h4 h3 e2, hR.setTop hcur q2 (h4.trans q2) hP.lt, ?_, ?_, by omega⟩
      · rw [List.getElem?_set, if_pos rfl, if_pos hP.lt]
      · rw [candAt_eq hps]; exact e2
  | succ top ih =>
    intro f hf g path stack idx nsum a ps hV hP hR hps ha hno
    obtain ⟨f, rfl⟩ : ∃ f', f = f' + 1 := ⟨f - 1, by omega⟩
    obtain ⟨q1, q2, q3⟩ := hP.node (top + 1) ps (Nat.le_refl _) hps
    obtain ⟨g', ok, ps', m, h1, h2, h3, h4, h5, h6⟩ := node_revise C hn hV q1 (A := ∅) (D := {a})
      (picks := ps.picks) (level := ps.level) (a := a) (by simp) (fun T hT hpT => ⟨hpT, by simp, fun d hd hdT => by
        rw [Finset.mem_singleton] at hd; subst hd
        refine hno T hT ?_
        intro e he
        rw [List.mem_toFinset, List.mem_append, List.mem_singleton] at he
        rcases he with he | rfl
        · exact hpT (List.mem_toFinset.2 he)
        · exact hdT⟩) (by simp) (by
          rintro h
          have := q1.len
          rw [h] at this
          simp at this; omega) (by simp) ha (show candSum env ps.insts < fuel by omega)
    rw [show (⟨ps.level, ps.picks, ps.insts⟩ : PSyn α) = ps from rfl] at h1
    have hcur : stack[idx]? = some ps := hR.cur.trans hps
    have hi : idx < stack.length := (List.getElem?_eq_some_iff.1 hcur).1
    rcases ok with _ | _
    · obtain ⟨hleft, hno'⟩ := h5 rfl
      have hlt : decmod idx (stack.set idx ps').length < (stack.set idx ps').length := by
        unfold decmod
        apply Nat.mod_lt
        rw [List.length_set]; omega
      obtain ⟨prev, hprev⟩ : ∃ q, (stack.set idx ps')[decmod idx (stack.set idx ps').length]? = some q :=
        ⟨_, List.getElem?_eq_getElem hlt⟩
      have hsm := C.small g' ps' h2 (by rw [h3]; exact hP.acts _ ps (Nat.le_refl _) hps) (by rw [h3]; exact hno')
      -- the slot before the last one
      have hpv : (prev.level < top + 1 → prev.level = top) ∧ (top + 1 ≤ prev.level → env.maxHeight ≠ 0) := by
        rcases get_set hi ps' hprev with ⟨_, e7⟩ | ⟨_, h8⟩
        · rw [e7, h4, q2]
          refine ⟨by omega, fun _ hm => ?_⟩
          have e5 := hR.levelEq (.inl hm) idx ps hcur
          have e6 : decmod idx (stack.set idx ps').length = idx := by
            rcases get_set hi ps' hprev with ⟨h9, _⟩ | ⟨_, h9⟩
            · exact h9
            · have := hR.levelEq (.inl hm) _ _ h9
              omega
          unfold decmod at e6
          rw [List.length_set, show idx + stack.length - 1 = idx - 1 + stack.length by omega, Nat.add_mod_right,
            Nat.mod_eq_of_lt (by omega)] at e6
          omega
        · rw [List.length_set] at h8
          obtain ⟨z1, z2⟩ := hR.prev hcur q2 h8
          exact ⟨fun h => by have := z1 h; omega, fun h hm => by have := z2 h hm; omega⟩
      by_cases hlv : ps'.level ≤ prev.level
      · have hbody : btBody env fuel (⟨g, stack, idx, nsum⟩, a) = .inl (some (.inl (env.addSmall ps' g'))) := by
          unfold btBody
          simp only [hcur, h1, hprev]
          rw [if_pos hlv]
        rw [loopFuel, hbody]
        refine .inl ⟨_, rfl, hsm, ?_⟩
        by_cases hs : Stop g'
        · exact .inl (C.smallStop _ _ hs)
        · exact .inr (.inr (.inr ⟨g', ps', ps, h2, hs, rfl, hleft, q1, h3.symm, by
            rw [h3]; exact hno'.resolve_left hs, fun hm => absurd hm (hpv.2 (by rw [← q2, ← h4]; exact hlv))⟩))
      obtain ⟨d1, d2, d3⟩ := C.done _ hsm
      rcases hd : env.done (env.addSmall ps' g') with ⟨g2, b⟩
      rw [hd] at d1 d2 d3
      rcases b with _ | _
      swap
      · have hbody : btBody env fuel (⟨g, stack, idx, nsum⟩, a) = .inl (some (.inl g2)) := by
          unfold btBody
          simp only [hcur, h1, hprev]
          rw [if_neg hlv, hd]
        rw [loopFuel, hbody]
        exact .inl ⟨_, rfl, d1, .inl (d3 rfl)⟩
      have hns : ¬ Stop g' := fun hs => by
        have := d2 (C.smallStop _ _ hs)
        cases this
      have hno'' := hno'.resolve_left hns
      have hplv : prev.level = top := hpv.1 (by rw [h4, q2] at hlv; omega)
      obtain ⟨hR', hpath⟩ := hR.back hcur q2 (h4.trans q2) hprev hplv
      obtain ⟨p, hp1, hp2⟩ := hP.chain top prev ps (Nat.lt_succ_self _) hpath hps
      have hbody : btBody env fuel (⟨g, stack, idx, nsum⟩, a) =
          .inr (⟨g2, stack.set idx ps', decmod idx (stack.set idx ps').length, m.getD nsum⟩, p) := by
        unfold btBody
        simp only [hcur, h1, hprev]
        rw [if_neg hlv, hd]
        simp only
        rw [h3, hp1, List.getLast?_append]
        simp
      rw [loopFuel, hbody]
      simp only
      rcases ih f (by omega) g2 path (stack.set idx ps') (decmod idx (stack.set idx ps').length) (m.getD nsum) p prev
        d1 (hP.down (Nat.le_succ top)) hR' hpath hp2
        (by rw [← hp1]; exact hno'') with h7 | ⟨g1, k, s1, s2, i1, m1, s3, t1, t2, t3, t4⟩
      · exact .inl h7
      · exact .inr ⟨g1, k, s1, s2, i1, m1, s3, t1, t2, by omega, t4⟩
    · obtain ⟨e1, e2⟩ := h6 rfl
      have hbody : btBody env fuel (⟨g, stack, idx, nsum⟩, a) =
          .inl (some (.inr ⟨g', stack.set idx ps', idx, m.getD nsum⟩)) := by
        unfold btBody
        simp only [hcur, h1]
      rw [loopFuel, hbody]
      refine .inr ⟨g', top + 1, path.set (top + 1) ps', stack.set idx ps', idx, m.getD nsum, ps', rfl, h2,
        Nat.le_refl _, hP.setTop hps e1 h4 h3 e2, hR.setTop hcur q2 (h4.trans q2) hP.lt, ?_, ?_, ?_⟩
      · rw [List.getElem?_set, if_pos rfl, if_pos hP.lt]
      · rw [candAt_eq hps]; exact e2
      · intro j hj
        rw [List.getElem?_set, if_neg (by omega)]

/-- The weight drops when going back to level `k`. -/
theorem weight_back {stack stack' : List (PSyn α)} {idx k : ℕ} (hk : k ≤ idx)
    (hlt : candAt env stack' k < candAt env stack k) (hsame : ∀ j < k, stack'[j]? = stack[j]?) :
    weight env stack' k < weight env stack idx := by
  have hsum : ∑ j ∈ Finset.range k, 3 ^ (candAt env stack' j - 1) =
      ∑ j ∈ Finset.range k, 3 ^ (candAt env stack j - 1) := by
    apply Finset.sum_congr rfl
    intro j hj
    rw [Finset.mem_range] at hj
    unfold candAt
    rw [hsame j hj]
  unfold weight
  rw [hsum]
  rcases Nat.lt_or_ge k idx with h | h
  · have h1 : ∑ j ∈ Finset.range (k + 1), 3 ^ (candAt env stack j - 1) ≤
        ∑ j ∈ Finset.range idx, 3 ^ (candAt env stack j - 1) :=
      Finset.sum_le_sum_of_subset (Finset.range_subset_range.2 h)
    rw [Finset.sum_range_succ] at h1
    have h2 : 3 ^ candAt env stack' k ≤ 3 ^ (candAt env stack k - 1) :=
      Nat.pow_le_pow_right (by omega) (by omega)
    have h3 : 0 < 3 ^ candAt env stack idx := Nat.pow_pos (by omega)
    omega
  · obtain rfl : k = idx := by omega
    have : 3 ^ candAt env stack' k < 3 ^ candAt env stack k := Nat.pow_lt_pow_right (by omega) hlt
    omega

/-- The weight drops when an action is picked. -/
theorem weight_push {stack stack' : List (PSyn α)} {idx : ℕ}
    (hlt : candAt env stack' (idx + 1) < candAt env stack idx) (hsame : ∀ j ≤ idx, stack'[j]? = stack[j]?) :
    weight env stack' (idx + 1) < weight env stack idx := by
  have hsum : ∑ j ∈ Finset.range (idx + 1), 3 ^ (candAt env stack' j - 1) =
      ∑ j ∈ Finset.range (idx + 1), 3 ^ (candAt env stack j - 1) := by
    apply Finset.sum_congr rfl
    intro j hj
    rw [Finset.mem_range] at hj
    unfold candAt
    rw [hsame j (by omega)]
  unfold weight
  rw [hsum, Finset.sum_range_succ]
  have h1 : 3 ^ candAt env stack' (idx + 1) ≤ 3 ^ (candAt env stack idx - 1) :=
    Nat.pow_le_pow_right (by omega) (by omega)
  have h2 : 3 ^ candAt env stack idx = 3 * 3 ^ (candAt env stack idx - 1) := by
    rw [← Nat.pow_succ']; congr 1; omega
  have h3 : 0 < 3 ^ (candAt env stack idx - 1) := Nat.pow_pos (by omega)
  omega

/-- Verification of a partial solution in which every instance passes. -/
theorem verify_pass (hv : env.verifyFound = true) : ∀ (l : List (SInst α)) (i : ℕ) (info : StabInfo) (sum : ℕ),
    (∀ (k : ℕ) (x : SInst α), l[k]? = some x → x.noPartial = false ∧ (env.stab (i + k) x.actions).ok = true ∧
      0 < (env.stab (i + k) x.actions).nlayers) →
    verifyLoop env true i l info sum = (true, info, sum) ∧
    ∃ info' sum', verifyLoop env false i l info sum = (true, info', sum') ∧ sum + l.length ≤ sum' := by
  intro l
  induction l with
  | nil => intro i info sum _; exact ⟨rfl, info, sum, rfl, by simp⟩
  | cons x l ih =>
    intro i info sum h
    obtain ⟨h1, h2, h3⟩ := h 0 x rfl
    rw [Nat.add_zero] at h2 h3
    have hr : ∀ (k : ℕ) (y : SInst α), l[k]? = some y → y.noPartial = false ∧
        (env.stab (i + 1 + k) y.actions).ok = true ∧ 0 < (env.stab (i + 1 + k) y.actions).nlayers := by
      intro k y hy
      have := h (k + 1) y (by simpa using hy)
      rwa [show i + (k + 1) = i + 1 + k by omega] at this
    constructor
    · unfold verifyLoop
      simp only [h1]
      exact (ih (i + 1) info sum hr).1
    · unfold verifyLoop
      simp only [h1, hv, h2]
      obtain ⟨-, info', sum', e1, e2⟩ := ih (i + 1) (updInfo info (env.stab i x.actions))
        (sum + (updInfo info (env.stab i x.actions)).nlayers) hr
      refine ⟨info', sum', by simpa using e1, ?_⟩
      have : (updInfo info (env.stab i x.actions)).nlayers = (env.stab i x.actions).nlayers := rfl
      rw [this] at e2
      simp only [List.length_cons]
      omega

/-- The state at the beginning of a round; `path` holds all nodes of the branch, also those the ring has lost. -/
def RoundOk (env : SearchEnv γ α) (Sol : Finset ℕ → Prop) (V : γ → Prop) (W : ℕ → SInst α → Prop)
    (Red : ℕ → SInst α → ℕ → Prop) (Act : ℕ → Prop) (n c0 : ℕ) (path : List (PSyn α)) (top : ℕ) (st : AddSt γ α) :
    Prop :=
  V st.g ∧ PathOk env Sol W Red Act n c0 path top ∧ RingOk env path top st.stack st.idx

/-- How the search may end. -/
def EndOk (env : SearchEnv γ α) (Sol : Finset ℕ → Prop) (V Stop : γ → Prop) (W0 W : ℕ → SInst α → Prop)
    (Red : ℕ → SInst α → ℕ → Prop) (Act : ℕ → Prop) (n : ℕ) : Option (AddOut γ) → Prop
  | none => False
  | some (.fail g) => FailOk env Sol V Stop W0 W Red Act n g
  | some (.found g acts) => ∃ g0 m ps, V g0 ∧ 0 < m ∧ g = env.setOptimal m g0 ∧ NodeOk env Sol W Red Act n ps ∧
      deadlocksCk env ps = false ∧ ∃ x, ps.insts.head? = some x ∧ acts = x.actions

/-- One round of the search. -/
theorem search_round (C : FindCert env Sol V Stop W0 W Red Act) {n c0 : ℕ} (hn1 : 1 ≤ n) (hn : n ≤ 2) {fuel : ℕ}
    (hfuel : c0 + 1 < fuel) {path : List (PSyn α)} {top : ℕ} {st : AddSt γ α}
    (h : RoundOk env Sol V W Red Act n c0 path top st) :
    (∃ r, addBody env fuel st = .inl r ∧ EndOk env Sol V Stop W0 W Red Act n r) ∨
    ∃ st' path' top', addBody env fuel st = .inr st' ∧ RoundOk env Sol V W Red Act n c0 path' top' st' ∧
      weight env path' top' < weight env path top := by
  obtain ⟨hV, hP, hR⟩ := h
  obtain ⟨ps, hpp⟩ : ∃ ps, path[top]? = some ps := ⟨_, List.getElem?_eq_getElem hP.lt⟩
  have hps : st.stack[st.idx]? = some ps := hR.cur.trans hpp
  obtain ⟨q1, q2, q3⟩ := hP.node top ps (Nat.le_refl _) hpp
  have hne : ps.insts ≠ [] := by
    rintro h
    have := q1.len
    rw [h] at this
    simp at this; omega
  obtain ⟨d1, d2, d3⟩ := C.done _ hV
  rcases hd : env.done st.g with ⟨g0, b⟩
  rw [hd] at d1 d2 d3
  unfold addBody
  simp only [hps, hd]
  rcases b with _ | _
  swap
  · exact .inl ⟨_, rfl, d1, .inl (d3 rfl)⟩
  simp only
  by_cases hdp : 0 < env.maxDepth ∧ env.maxDepth ≤ ps.level
  · rw [if_pos hdp]
    exact .inl ⟨_, rfl, d1, .inr (.inl hdp.1)⟩
  rw [if_neg hdp]
  by_cases hdl : deadlocksCk env ps = true
  · rw [if_pos hdl]
    obtain ⟨g1, a, m1, m2, m3⟩ := C.mrv g0 ps d1 q1.w hdl
    have ha : Act a := by
      obtain ⟨x, hx, hax⟩ := m3
      obtain ⟨i, hi⟩ := List.getElem?_of_mem hx
      exact q1.act i x hi a hax
    obtain ⟨g2, ok, next, m, r1, r2, r3, r4, r5, r6⟩ := node_revise C hn m2 q1 (A := {a}) (D := ∅)
      (picks := ps.picks ++ [a]) (level := ps.level + 1) (a := a) (by
        intro e he; rw [Finset.mem_singleton] at he; subst he; exact ha) (by
        intro T hT hp
        refine ⟨fun e he => hp ?_, ?_, by simp⟩
        · rw [List.mem_toFinset] at he ⊢; exact List.mem_append_left _ he
        · intro e he
          rw [Finset.mem_singleton] at he; subst he
          exact hp (by simp)) (by intro e; simp) hne (by simp) m3
        (show candSum env ps.insts < fuel by omega)
    have hlv : next.level = top + 1 := by rw [r4, q2]
    obtain ⟨hlen, hR1, hcur1, hR2⟩ := hR.next hps q2 hlv hP.lt (slot := nextSlot env st.stack st.idx) rfl
    have hget : ∀ k ≤ top, (path.take (top + 1) ++ [next])[k]? = path[k]? := by
      intro k hk
      have := hP.lt
      rw [List.getElem?_append_left (by rw [List.length_take]; omega), List.getElem?_take, if_pos (by omega)]
    have htop : (path.take (top + 1) ++ [next])[top + 1]? = some next := by
      have := hP.lt
      rw [List.getElem?_append_right (by rw [List.length_take]; omega)]
      simp [List.length_take, Nat.min_eq_left (show top + 1 ≤ path.length by omega)]
    have hpick : pickAction env fuel g1 { ps with level := ps.level + 1 } a =
        some (if ok then (g2, true, next) else (env.addSmall next g2, false, next)) := by
      unfold pickAction
      simp only [r1]
      rcases ok with _ | _ <;> rfl
    unfold addPick
    simp only [m1, hpick]
    rcases ok with _ | _
    · obtain ⟨hleft, hno⟩ := r5 rfl
      have hsm := C.small g2 next r2 (by
        intro p hp
        rw [r3, List.mem_append, List.mem_singleton] at hp
        rcases hp with hp | rfl
        · exact hP.acts _ ps (Nat.le_refl _) hpp p hp
        · exact ha) (by rw [r3]; exact hno)
      obtain ⟨d4, d5, d6⟩ := C.done _ hsm
      rcases hd' : env.done (env.addSmall next g2) with ⟨g3, b⟩
      rw [hd'] at d4 d5 d6
      simp only [Bool.false_eq_true, if_false, if_pos hlen, hd']
      rcases b with _ | _
      swap
      · exact .inl ⟨_, rfl, d4, .inl (d6 rfl)⟩
      have hns : ¬ Stop g2 := fun hs => by
        have := d5 (C.smallStop _ _ hs)
        cases this
      simp only
      rcases bt_spec C hn1 hn (show c0 < fuel by omega) top fuel (by omega) g3 path
        ((nextSlot env st.stack st.idx).1.set (nextSlot env st.stack st.idx).2 next) st.idx st.nsum a ps d4 hP hR1
        hpp m3 (hno.resolve_left hns)
        with ⟨g', e1, e2⟩ | ⟨g', k, p1, s1, i1, m', s2, e1, e2, e3, e4, e5, e6, e7, e8⟩
      · rw [e1]
        exact .inl ⟨_, rfl, e2⟩
      · rw [e1]
        simp only [C.rev.optimal _ hV]
        refine .inr ⟨⟨g', s1, i1, m'⟩, p1, k, by simp, ⟨e2, e4, e5⟩, ?_⟩
        apply weight_back e3
        · rw [candAt_eq e6]; exact e7
        · exact e8
    · obtain ⟨e1, e2⟩ := r6 rfl
      simp only [if_true, if_pos hlen]
      refine .inr ⟨_, path.take (top + 1) ++ [next], top + 1, rfl, ⟨r2, ?_, hR2⟩, ?_⟩
      · refine ⟨by have := hP.lt; simp [List.length_take]; omega, ?_, ?_, ?_⟩
        · intro k q hk hq
          rcases Nat.lt_or_ge top k with h1 | h1
          · obtain rfl : k = top + 1 := by omega
            rw [htop, Option.some.injEq] at hq
            subst hq
            exact ⟨e1, hlv, by omega⟩
          · rw [hget k h1] at hq; exact hP.node k q h1 hq
        · intro q hq
          rw [hget 0 (Nat.zero_le _)] at hq; exact hP.root q hq
        · intro k q q' hk hq hq'
          rw [hget k (by omega)] at hq
          rcases Nat.lt_or_ge k top with h1 | h1
          · rw [hget (k + 1) (by omega)] at hq'
            exact hP.chain k q q' h1 hq hq'
          · obtain rfl : k = top := by omega
            rw [htop, Option.some.injEq] at hq'
            rw [hpp, Option.some.injEq] at hq
            subst hq hq'
            exact ⟨a, r3, m3⟩
      · apply weight_push
        · rw [candAt_eq htop, candAt_eq hpp]; exact e2
        · exact hget
  · rw [if_neg hdl]
    rw [Bool.not_eq_true] at hdl
    have hdl' : ∀ x ∈ ps.insts, env.deadlock x.rest = false := by
      intro x hx
      unfold deadlocksCk at hdl
      rw [List.any_eq_false] at hdl
      simpa using hdl x hx
    obtain ⟨v1, info', sum', v2, v3⟩ := verify_pass C.verify ps.insts 0 {} 0 (by
      intro k x hx
      rw [Nat.zero_add]
      exact ⟨C.whole _ _ (q1.w k x hx), C.stab k x (q1.w k x hx) (hdl' x (List.mem_of_getElem? hx))⟩)
    have hver : verifySolutions env ps {} = (true, info', sum') := by
      unfold verifySolutions
      rw [v1]; exact v2
    rw [hver]
    simp only [C.rev.optimal _ d1]
    rw [if_pos (by simp)]
    refine .inl ⟨_, rfl, ?_⟩
    unfold addFinish
    rw [hdl]
    simp only [Bool.false_eq_true, if_false]
    rcases hl : ps.insts with _ | ⟨x, l⟩
    · rw [hl] at v3; have := q1.len; rw [hl] at this; simp at this; omega
    · have hpos : 0 < sum' := by rw [hl] at v3; simp at v3; omega
      simp only [if_pos hpos]
      exact ⟨g0, sum', ps, d1, hpos, rfl, q1, hdl, x, by rw [hl]; rfl, rfl⟩

/-- The main loop of the search. -/
theorem search_loop (C : FindCert env Sol V Stop W0 W Red Act) {n c0 : ℕ} (hn1 : 1 ≤ n) (hn : n ≤ 2) {fuel : ℕ}
    (hfuel : c0 + 1 < fuel) : ∀ (f : ℕ) (path : List (PSyn α)) (top : ℕ) (st : AddSt γ α),
    RoundOk env Sol V W Red Act n c0 path top st → weight env path top < f →
    ∃ r, loopFuel (addBody env fuel) f st = some r ∧ EndOk env Sol V Stop W0 W Red Act n r := by
  intro f
  induction f with
  | zero => intro path top st _ h; omega
  | succ f ih =>
    intro path top st hst hw
    rw [loopFuel]
    rcases search_round C hn1 hn hfuel hst with ⟨r, h1, h2⟩ | ⟨st', path', top', h1, h2, h3⟩
    · rw [h1]; exact ⟨r, rfl, h2⟩
    · rw [h1]; exact ih path' top' st' h2 (by omega)

/-- `AddStabilization` from a good base: it ends; when it fails it has been told to stop, was too deep,
or has learned a conflict; what it finds comes from a node that has passed all checks. -/
theorem find_spec (C : FindCert env Sol V Stop W0 W Red Act) {n : ℕ} (hn1 : 1 ≤ n) (hn : n ≤ 2) {g : γ} {ps : PSyn α}
    (hV : V g) (hok : NodeOk env Sol W Red Act n ps) (hp : ps.picks = []) {fuel : ℕ}
    (hfuel : 3 ^ candSum env ps.insts + 1 < fuel) :
    EndOk env Sol V Stop W0 W Red Act n (addStabilization env fuel g ps) := by
  obtain ⟨c0, hc0⟩ : ∃ c, c = candSum env ps.insts := ⟨_, rfl⟩
  rw [← hc0] at hfuel
  have hc3 : c0 + 1 ≤ 3 ^ c0 := Nat.succ_le_of_lt (Nat.lt_pow_self (by omega))
  unfold addStabilization
  rcases hl : ps.insts with _ | ⟨x, l⟩
  · have := hok.len; rw [hl] at this; simp at this; omega
  simp only
  split
  · next hc =>
    have hnone : ∀ T, ¬ Sol T := by
      intro T hT
      have hf := hok.fits T hT (by rw [hp]; simp) 0 x (by rw [hl]; rfl)
      refine C.conf g x.actions hV hc T hT ?_
      intro e he
      exact hf.1 e (List.mem_toFinset.1 he)
    exact ⟨C.none _ hV hnone, .inr (.inr (.inl ⟨g, hV, rfl, hnone⟩))⟩
  · have hstart : RoundOk env Sol V W Red Act n c0 [{ ps with level := 0 }] 0 ⟨g, [{ ps with level := 0 }], 0, 0⟩ := by
      refine ⟨hV, ⟨by simp, ?_, ?_, by intro k q q' hk; simp at hk⟩, ⟨rfl, ?_, ?_, ?_, ?_⟩⟩
      · intro k q hk hq
        simp only [Nat.le_zero] at hk
        subst hk
        simp only [List.getElem?_cons_zero, Option.some.injEq] at hq
        subst hq
        exact ⟨⟨hok.len, hok.w, hok.same, hok.act, hok.fits, hok.picked⟩, rfl, by simp only; omega⟩
      · intro q hq
        simp only [List.getElem?_cons_zero, Option.some.injEq] at hq
        subst hq; exact hp
      all_goals
        simp only [List.getElem?_singleton]
      · intro j q hq
        split_ifs at hq with hj
        subst hj
        rw [Option.some.injEq] at hq
        subst hq; rfl
      · intro _ j q hq
        split_ifs at hq with hj
        subst hj
        rw [Option.some.injEq] at hq
        subst hq; rfl
      · intro j q hq
        split_ifs at hq with hj
        simp
      · intro j q hq hle
        split_ifs at hq with hj
        rw [Option.some.injEq] at hq
        subst hq; rfl
    have hw : weight env [{ ps with level := 0 }] 0 = 3 ^ c0 := by
      unfold weight
      rw [candAt_eq (ps := { ps with level := 0 }) (by rfl), hc0]
      simp
    obtain ⟨b, hb, hQ⟩ := search_loop C hn1 hn (show c0 + 1 < fuel by omega) fuel _ 0 _ hstart (by rw [hw]; omega)
    rw [hl] at hb
    rw [hb]
    exact hQ

end Verif.Proofs
