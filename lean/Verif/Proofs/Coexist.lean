import Verif.Model.Coexist
import Verif.Spec.Coexist
import Verif.Proofs.Sync

set_option linter.unusedSectionVars false

/-! Facts about the compatibility check of actions. -/

namespace Verif.Proofs

open Verif.Model Verif.Spec

theorem syntReadCk_iff (x : Access) : x.syntReadCk = true ↔ Readable x := by
  obtain ⟨ty, ro, d⟩ := x
  cases ty <;> cases ro <;> simp [Access.syntReadCk, Access.readCk, Access.puppetCk, Readable]

theorem writeCk_iff (x : Access) : x.writeCk = true ↔ Written x := by
  obtain ⟨ty, ro, d⟩ := x
  cases ty <;> simp [Access.writeCk, Written]

theorem writeCk_eq (x : Access) : x.writeCk = decide (Written x) := by
  rw [Bool.eq_iff_iff, writeCk_iff, decide_eq_true_iff]

variable {pc : PcSymm} {a b : List ℕ}

theorem acc_eq {f : Access → Bool} {i : ℕ} {x : Access} (h : pc.access[i]? = some x) : pc.acc f i = f x := by
  simp [PcSymm.acc, h]

theorem mem_wmap_written {i : ℕ} : i ∈ pc.wmap ↔ ∃ x, pc.access[i]? = some x ∧ Written x := by
  unfold PcSymm.wmap
  simp only [List.mem_filter, List.mem_range]
  constructor
  · rintro ⟨h, h2⟩
    rw [List.getElem?_eq_getElem h] at h2
    exact ⟨_, List.getElem?_eq_getElem h, (writeCk_iff _).1 (by simpa using h2)⟩
  · rintro ⟨x, h, hw⟩
    refine ⟨(List.getElem?_eq_some_iff.1 h).1, ?_⟩
    rw [h]
    simpa using (writeCk_iff x).2 hw

/-- The number of written accesses before `i`. -/
theorem countP_take (l : List Access) (i : ℕ) (hi : i ≤ l.length) :
    ((List.range i).filter fun k => ((l[k]?).map Access.writeCk).getD false).length =
      (l.take i).countP fun x => decide (Written x) := by
  induction i with
  | zero => simp
  | succ i ih =>
    have hl : i < l.length := hi
    rw [List.range_succ, List.filter_append, List.length_append, ih (Nat.le_of_lt hl), List.take_add_one,
      List.countP_append, List.getElem?_eq_getElem hl]
    have he := writeCk_eq l[i]
    simp only [List.filter_cons, List.getElem?_eq_getElem hl, Option.map_some, Option.getD_some, he,
      Option.toList_some, List.countP_cons, List.filter_nil, List.countP_nil]
    split <;> simp_all

theorem wmap_slot {i : ℕ} {x : Access} (h : pc.access[i]? = some x) (hw : Written x) :
    pc.wmap[slot pc i - pc.access.length]? = some i := by
  obtain ⟨hi, hx⟩ := List.getElem?_eq_some_iff.1 h
  have hs : slot pc i - pc.access.length = (pc.access.take i).countP fun x => decide (Written x) := by
    simp [slot]
  rw [hs, ← countP_take _ _ (Nat.le_of_lt hi)]
  unfold PcSymm.wmap
  have hr : List.range pc.access.length =
      List.range i ++ (List.range (pc.access.length - i)).map (fun k => i + k) := by
    rw [← List.range_add]
    congr 1
    omega
  obtain ⟨m, hm⟩ : ∃ m, pc.access.length - i = m + 1 := ⟨pc.access.length - i - 1, by omega⟩
  rw [hr, List.filter_append, List.getElem?_append_right (Nat.le_refl _), Nat.sub_self, hm, List.range_succ_eq_map]
  have hp : ((pc.access[i]?).map Access.writeCk).getD false = true := by
    rw [h]; simpa using (writeCk_iff x).2 hw
  simp only [List.map_cons, Nat.add_zero, List.filter_cons, hp, if_true, List.getElem?_cons_zero]

theorem wmap_nodup : pc.wmap.Nodup := List.Nodup.filter _ List.nodup_range

theorem length_wmap : pc.access.length + pc.wmap.length = slot pc pc.access.length := by
  unfold slot PcSymm.wmap
  rw [countP_take _ _ (Nat.le_refl _)]

/-- Every entry of `wmap` is a written access, and its value is in the slot of the access. -/
theorem slot_wmap {j i : ℕ} (h : pc.wmap[j]? = some i) : slot pc i = pc.access.length + j := by
  obtain ⟨x, hx, hw⟩ := mem_wmap_written.1 (List.mem_of_getElem? h)
  have h2 := wmap_slot hx hw
  have : slot pc i - pc.access.length = j := by
    obtain ⟨h3, h4⟩ := List.getElem?_eq_some_iff.1 h2
    obtain ⟨h5, h6⟩ := List.getElem?_eq_some_iff.1 h
    exact (List.Nodup.getElem_inj_iff wmap_nodup).1 (h4.trans h6.symm)
  have : pc.access.length ≤ slot pc i := Nat.le_add_right _ _
  omega

theorem slot_lt {i : ℕ} {x : Access} (h : pc.access[i]? = some x) (hw : Written x) :
    slot pc i < slot pc pc.access.length := by
  have h2 := wmap_slot h hw
  have h3 := (List.getElem?_eq_some_iff.1 h2).1
  rw [← length_wmap]
  have : pc.access.length ≤ slot pc i := Nat.le_add_right _ _
  omega

theorem guard_lt (ha : IsAct pc a) {i : ℕ} {x : Access} (h : pc.access[i]? = some x) :
    a[i]? = some (actGuard a i) := by
  have h1 := (List.getElem?_eq_some_iff.1 h).1
  have h2 : i < a.length := by rw [ha.1, slot]; omega
  rw [actGuard, List.getD_eq_getElem?_getD, List.getElem?_eq_getElem h2]
  rfl

/-- The value assigned to access `i`. -/
def asg (pc : PcSymm) (a : List ℕ) (i : ℕ) : ℕ := a.getD (slot pc i) 0

theorem asg_some (ha : IsAct pc a) {i : ℕ} {x : Access} (h : pc.access[i]? = some x) (hw : Written x) :
    a[slot pc i]? = some (asg pc a i) := by
  have h2 : slot pc i < a.length := by rw [ha.1]; exact slot_lt h hw
  rw [asg, List.getD_eq_getElem?_getD, List.getElem?_eq_getElem h2]
  rfl

/-- A loop over the written variables is a loop over the written accesses. -/
theorem forall_wmap {P : ℕ → ℕ → Prop} :
    (∀ j < pc.wmap.length, P j (pc.wmap.getD j 0)) ↔
      ∀ i x, pc.access[i]? = some x → Written x → P (slot pc i - pc.access.length) i := by
  constructor
  · intro h i x hx hw
    have h2 := wmap_slot hx hw
    have h3 := h _ (List.getElem?_eq_some_iff.1 h2).1
    rwa [List.getD_eq_getElem?_getD, h2] at h3
  · intro h j hj
    have h2 : pc.wmap[j]? = some (pc.wmap.getD j 0) := by
      rw [List.getD_eq_getElem?_getD, List.getElem?_eq_getElem hj]; rfl
    obtain ⟨x, hx, hw⟩ := mem_wmap_written.1 (List.mem_of_getElem? h2)
    have h3 := h _ x hx hw
    rw [slot_wmap h2] at h3
    simpa using h3

theorem adjEql_iff : readableAdjEql pc a b = true ↔
    ∀ i x, pc.access[i]? = some x → Readable x → actGuard a i = actGuard b i := by
  unfold readableAdjEql
  simp only [List.all_eq_true, List.mem_range, Bool.or_eq_true, Bool.not_eq_true', beq_iff_eq]
  constructor
  · intro h i x hx hr
    rcases h i (List.getElem?_eq_some_iff.1 hx).1 with h2 | h2
    · rw [acc_eq hx, (syntReadCk_iff x).2 hr] at h2
      cases h2
    · exact h2
  · intro h i hi
    have hx := List.getElem?_eq_getElem hi
    by_cases hr : Readable pc.access[i]
    · exact Or.inr (h i _ hx hr)
    · left
      rw [acc_eq hx, Bool.eq_false_iff]
      exact fun h2 => hr ((syntReadCk_iff _).1 h2)

/-- A readable access in which the guards differ. -/
def Differs (pc : PcSymm) (a b : List ℕ) (i : ℕ) : Prop :=
  ∃ x, pc.access[i]? = some x ∧ Readable x ∧ actGuard a i ≠ actGuard b i

/-- As `Differs`, for a variable that the process cannot change. -/
def Fixed (pc : PcSymm) (a b : List ℕ) (i : ℕ) : Prop :=
  ∃ x, pc.access[i]? = some x ∧ Readable x ∧ ¬ Written x ∧ x.type ≠ .randomRead ∧ actGuard a i ≠ actGuard b i

theorem Fixed.differs {i : ℕ} (h : Fixed pc a b i) : Differs pc a b i := by
  obtain ⟨x, h1, h2, -, -, h3⟩ := h
  exact ⟨x, h1, h2, h3⟩

theorem enLoop_spec (l : List ℕ) : ∀ det, (∀ j ∈ l, j < pc.access.length) →
    ((enLoop pc a b l true det).1 = true ↔ ∀ j ∈ l, ¬ Fixed pc a b j) ∧
    ((enLoop pc a b l true det).2 = true ↔ det = true ∨ ∃ j ∈ l, Differs pc a b j) := by
  induction l with
  | nil => intro det _; simp [enLoop]
  | cons j l ih =>
    intro det hl
    obtain ⟨y, hj⟩ : ∃ y, pc.access[j]? = some y := ⟨_, List.getElem?_eq_getElem (hl j (by simp))⟩
    have hl2 : ∀ k ∈ l, k < pc.access.length := fun k hk => hl k (by simp [hk])
    by_cases hr : Readable y
    · by_cases hg : actGuard a j = actGuard b j
      · have hD : ¬ Differs pc a b j := fun ⟨_, _, _, h⟩ => h hg
        have hF : ¬ Fixed pc a b j := fun h => hD h.differs
        have he : enLoop pc a b (j :: l) true det = enLoop pc a b l true det := by
          simp [enLoop, acc_eq hj, (syntReadCk_iff _).2 hr, hg]
        rw [he]
        simpa [hD, hF] using ih det hl2
      · have hD : Differs pc a b j := ⟨_, hj, hr, hg⟩
        by_cases hw : ¬ Written y ∧ y.type ≠ .randomRead
        · have hF : Fixed pc a b j := ⟨_, hj, hr, hw.1, hw.2, hg⟩
          have he : enLoop pc a b (j :: l) true det = (false, true) := by
            have h1 : y.writeCk = false := by
              rw [Bool.eq_false_iff]; exact fun h => hw.1 ((writeCk_iff _).1 h)
            have h2 : y.randomReadCk = false := by
              simp [Access.randomReadCk, hw.2]
            simp only [enLoop, acc_eq hj, (syntReadCk_iff _).2 hr, h1, h2]
            simp only [hg, ne_eq, not_false_eq_true, if_true, Bool.not_true, Bool.false_eq_true, if_false,
              Bool.not_false, Bool.and_self]
            cases l <;> simp [enLoop]
          rw [he]
          simp [hD, hF]
        · have hF : ¬ Fixed pc a b j := by
            rintro ⟨x, hx, _, h1, h2, _⟩
            rw [hj] at hx
            cases hx
            exact hw ⟨h1, h2⟩
          have he : enLoop pc a b (j :: l) true det = enLoop pc a b l true true := by
            have h1 : (!y.writeCk && !y.randomReadCk) = false := by
              rw [Bool.eq_false_iff]
              intro h
              simp only [Bool.and_eq_true, Bool.not_eq_true'] at h
              refine hw ⟨fun h3 => ?_, fun h3 => ?_⟩
              · rw [(writeCk_iff _).2 h3] at h; cases h.1
              · simp [Access.randomReadCk, h3] at h
            simp only [enLoop, acc_eq hj, (syntReadCk_iff _).2 hr, h1]
            simp [hg]
          rw [he]
          simpa [hD, hF] using ih true hl2
    · have hD : ¬ Differs pc a b j := by
        rintro ⟨x, hx, h, _⟩
        rw [hj] at hx
        cases hx
        exact hr h
      have hF : ¬ Fixed pc a b j := fun h => hD h.differs
      have hs : y.syntReadCk = false := by
        rw [Bool.eq_false_iff]; exact fun h => hr ((syntReadCk_iff _).1 h)
      have he : enLoop pc a b (j :: l) true det = enLoop pc a b l true det := by
        simp [enLoop, acc_eq hj, hs]
      rw [he]
      simpa [hD, hF] using ih det hl2

theorem enLoop_en : (enLoop pc a b (List.range pc.access.length) true false).1 = true ↔
    ∀ j, ¬ Fixed pc a b j := by
  rw [(enLoop_spec _ _ fun j hj => List.mem_range.1 hj).1]
  refine ⟨fun h j hj => h j ?_ hj, fun h j _ => h j⟩
  obtain ⟨x, hx, _⟩ := hj
  exact List.mem_range.2 (List.getElem?_eq_some_iff.1 hx).1

theorem enLoop_det : (enLoop pc a b (List.range pc.access.length) true false).2 = true ↔
    ∃ j, Differs pc a b j := by
  rw [(enLoop_spec _ _ fun j hj => List.mem_range.1 hj).2]
  constructor
  · rintro (h | ⟨j, _, h⟩)
    · cases h
    · exact ⟨j, h⟩
  · rintro ⟨j, h⟩
    have ⟨x, hx, _⟩ := h
    exact Or.inr ⟨j, List.mem_range.2 (List.getElem?_eq_some_iff.1 hx).1, h⟩

theorem assignsGuard_iff : assignsGuard pc a b = true ↔
    ∀ i x, pc.access[i]? = some x → Written x → Readable x → asg pc a i = actGuard b i := by
  unfold assignsGuard
  simp only [List.all_eq_true, List.mem_range, Bool.or_eq_true, beq_iff_eq, PcSymm.wacc, actAssign, actAguard]
  have h := forall_wmap (pc := pc)
    (P := fun j i => pc.acc Access.syntWriteonlyCk i = true ∨ a.getD (pc.access.length + j) 0 = b.getD i 0)
  rw [h]
  refine forall₄_congr fun i x hx hw => ?_
  have hs : pc.access.length + (slot pc i - pc.access.length) = slot pc i := by
    have : pc.access.length ≤ slot pc i := Nat.le_add_right _ _
    omega
  rw [hs, acc_eq hx, Access.syntWriteonlyCk, (writeCk_iff x).2 hw]
  by_cases hr : Readable x
  · simp [(syntReadCk_iff x).2 hr, hr, asg, actGuard]
  · have : x.syntReadCk = false := by
      rw [Bool.eq_false_iff]; exact fun h => hr ((syntReadCk_iff _).1 h)
    simp [this, hr]

theorem any_wmap {f : Access → Bool} (hf : ∀ x, f x = true → Written x) :
    (List.range pc.wmap.length).any (pc.wacc f) = true ↔ ∃ x ∈ pc.access, f x = true := by
  have h := forall_wmap (pc := pc) (P := fun _ i => pc.acc f i = false)
  rw [← not_iff_not]
  simp only [List.any_eq_true, List.mem_range, PcSymm.wacc, not_exists, not_and, Bool.not_eq_true]
  rw [h]
  constructor
  · intro h2 x hx
    obtain ⟨i, hi, rfl⟩ := List.getElem_of_mem hx
    by_contra h3
    have h4 := hf _ (by simpa using h3)
    have h5 := h2 i _ (List.getElem?_eq_getElem hi) h4
    rw [acc_eq (List.getElem?_eq_getElem hi)] at h5
    exact h3 h5
  · intro h2 i x hx _
    rw [acc_eq hx]
    exact h2 x (List.mem_of_getElem? hx)

theorem writeonly_iff : (List.range pc.wmap.length).any (pc.wacc Access.syntWriteonlyCk) = true ↔
    HasWriteOnly pc := by
  rw [any_wmap]
  · refine exists_congr fun x => and_congr_right fun _ => ?_
    rw [Access.syntWriteonlyCk, Bool.and_eq_true, writeCk_iff, Bool.not_eq_true', Bool.eq_false_iff,
      Ne, syntReadCk_iff, and_comm]
  · intro x hx
    rw [Access.syntWriteonlyCk, Bool.and_eq_true] at hx
    exact (writeCk_iff x).1 hx.2

theorem random_iff : (List.range pc.wmap.length).any (pc.wacc Access.randomWriteCk) = true ↔
    HasRandomWrite pc := by
  rw [any_wmap]
  · simp [HasRandomWrite, Access.randomWriteCk]
  · intro x hx
    exact Or.inr (Or.inr (Or.inr (by simpa [Access.randomWriteCk] using hx)))

/-! ### Meaning of the tests -/

theorem bothEnabled_iff (ha : IsAct pc a) (hb : IsAct pc b) :
    BothEnabled pc a b ↔ ¬ ∃ j, Differs pc a b j := by
  constructor
  · rintro ⟨s, h1, h2⟩ ⟨j, x, hx, hr, hd⟩
    have h3 := h1 j x hx hr
    have h4 := h2 j x hx hr
    rw [guard_lt ha hx] at h3
    rw [guard_lt hb hx] at h4
    rw [Option.some.injEq] at h3 h4
    exact hd (h3.trans h4.symm)
  · intro h
    refine ⟨actGuard a, fun i x hx _ => guard_lt ha hx, fun i x hx hr => ?_⟩
    by_cases hg : actGuard a i = actGuard b i
    · rw [hg]; exact guard_lt hb hx
    · exact absurd ⟨i, x, hx, hr, hg⟩ h

theorem apart_iff (ha : IsAct pc a) (hb : IsAct pc b) : Apart pc a b ↔ ∃ i, Fixed pc a b i := by
  unfold Apart Fixed
  refine exists_congr fun i => exists_congr fun x => and_congr_right fun hx => ?_
  rw [guard_lt ha hx, guard_lt hb hx]
  simp

/-- The state after `a` that shows `b` the values it wants where the process allows it. -/
theorem step_exists (ha : IsAct pc a) (u : ℕ → ℕ) :
    LStep pc a (actGuard a) fun i =>
      match pc.access[i]? with
      | some x =>
        if Written x ∧ x.type ≠ .randomWrite then (if asg pc a i < x.domsz then asg pc a i else actGuard a i)
        else if Written x ∨ x.type = .randomRead then u i
        else actGuard a i
      | none => 0 := by
  refine ⟨fun i x hx _ => guard_lt ha hx, fun i x hx => ⟨fun h1 h2 => ?_, fun h1 h2 => ⟨_, asg_some ha hx h1, ?_⟩⟩⟩
  · simp [hx, h1, h2]
  · simp [hx, h1, h2]

theorem selfLoop_iff (ha : IsAct pc a) (hn : ¬ HasRandomWrite pc) :
    SelfLoop pc a ↔ assignsGuard pc a a = true := by
  rw [assignsGuard_iff]
  constructor
  · intro h i x hx hw hr
    have h2 := h _ _ (step_exists ha fun _ => 0) i x hx hr hw
    have hnr : x.type ≠ .randomWrite := fun h => hn ⟨x, List.mem_of_getElem? hx, h⟩
    simpa [hx, hw, hnr, ha.2 i x _ hx hr hw (asg_some ha hx hw)] using h2
  · intro h s t hs i x hx hr hw
    have hnr : x.type ≠ .randomWrite := fun h => hn ⟨x, List.mem_of_getElem? hx, h⟩
    obtain ⟨v, hv, ht⟩ := (hs.2 i x hx).2 hw hnr
    rw [ht, if_pos (ha.2 i x v hx hr hw hv)]
    have h2 := hs.1 i x hx hr
    rw [guard_lt ha hx, Option.some.injEq] at h2
    rw [asg_some ha hx hw, Option.some.injEq] at hv
    rw [← hv, h i x hx hw hr, h2]

theorem enables_iff (ha : IsAct pc a) (hb : IsAct pc b) (hn : ¬ HasRandomWrite pc) :
    Enables pc a b ↔ assignsGuard pc a b = true ∧ ∀ j, ¬ Fixed pc a b j := by
  rw [assignsGuard_iff]
  constructor
  · rintro ⟨s, t, hs, ht⟩
    refine ⟨fun i x hx hw hr => ?_, ?_⟩
    · have hnr : x.type ≠ .randomWrite := fun h => hn ⟨x, List.mem_of_getElem? hx, h⟩
      obtain ⟨v, hv, h2⟩ := (hs.2 i x hx).2 hw hnr
      rw [if_pos (ha.2 i x v hx hr hw hv)] at h2
      have h3 := ht i x hx hr
      rw [guard_lt hb hx, Option.some.injEq] at h3
      rw [asg_some ha hx hw, Option.some.injEq] at hv
      rw [hv, h3, h2]
    · rintro j ⟨x, hx, hr, hw, hrr, hd⟩
      have h1 := (hs.2 j x hx).1 hw hrr
      have h2 := hs.1 j x hx hr
      have h3 := ht j x hx hr
      rw [guard_lt ha hx, Option.some.injEq] at h2
      rw [guard_lt hb hx, Option.some.injEq] at h3
      exact hd (by rw [h2, h3, h1])
  · rintro ⟨h1, h2⟩
    refine ⟨_, _, step_exists ha (actGuard b), fun i x hx hr => ?_⟩
    have hnr : x.type ≠ .randomWrite := fun h => hn ⟨x, List.mem_of_getElem? hx, h⟩
    rw [guard_lt hb hx, hx]
    by_cases hw : Written x
    · have h4 := ha.2 i x _ hx hr hw (asg_some ha hx hw)
      rw [h1 i x hx hw hr] at h4
      simp [hw, hnr, h1 i x hx hw hr, h4]
    · by_cases hrr : x.type = .randomRead
      · simp [hw, hrr]
      · have : actGuard a i = actGuard b i := by
          by_contra h3
          exact h2 i ⟨x, hx, hr, hw, hrr, h3⟩
        simp [hw, hrr, this]

theorem fixed_comm {i : ℕ} : Fixed pc a b i ↔ Fixed pc b a i := by
  unfold Fixed
  simp only [ne_comm (a := actGuard a i)]

end Verif.Proofs
