import Verif.Model.Sync
import Verif.Spec.Sync
import Verif.Proofs.Index
import Verif.Proofs.Conflict

/-! Lemmas for property C16: the synchronous relation. -/

set_option linter.unusedSectionVars false

namespace Verif.Proofs
open Verif.Model Verif.Spec

variable {V : Type} [Fintype V] [DecidableEq V] {dom : V → ℕ}

theorem mem_mapM_iff {α β : Type} {f : α → Option β} :
    ∀ {l : List α} {ws : List β}, l.mapM f = some ws → ∀ w, w ∈ ws ↔ ∃ e ∈ l, f e = some w := by
  intro l
  induction l with
  | nil => intro ws h w; simp at h; subst h; simp
  | cons a l ih =>
    intro ws h w
    rw [List.mapM_cons] at h
    simp only [Option.bind_eq_bind, Option.bind_eq_some_iff] at h
    obtain ⟨b, hb, bs, hbs, hw⟩ := h
    simp only [Option.pure_def, Option.some.injEq] at hw
    subst hw
    simp only [List.mem_cons, ih hbs w, exists_eq_or_imp, hb, Option.some.injEq]
    exact or_congr_left eq_comm

theorem exists_mapM {α β : Type} {f : α → Option β} :
    ∀ {l : List α}, (∀ e ∈ l, ∃ w, f e = some w) → ∃ ws, l.mapM f = some ws := by
  intro l
  induction l with
  | nil => intro _; exact ⟨[], rfl⟩
  | cons a l ih =>
    intro h
    obtain ⟨b, hb⟩ := h a (by simp)
    obtain ⟨bs, hbs⟩ := ih fun e he => h e (by simp [he])
    exact ⟨b :: bs, by rw [List.mapM_cons, hb, hbs]; rfl⟩

theorem mem_foldl_inter {α β : Type} [DecidableEq β] (f : α → Finset β) :
    ∀ (l : List α) (x : Finset β) (e : β),
      e ∈ l.foldl (fun x a => x ∩ f a) x ↔ e ∈ x ∧ ∀ a ∈ l, e ∈ f a := by
  intro l
  induction l with
  | nil => simp
  | cons a l ih =>
    intro x e
    rw [List.foldl_cons, ih]
    simp [and_assoc]

theorem mem_foldl_union {α β : Type} [DecidableEq β] (p : α → Prop) [DecidablePred p] (f : α → Finset β) :
    ∀ (l : List α) (x : Finset β) (e : β),
      e ∈ l.foldl (fun x a => if p a then x ∪ f a else x) x ↔ e ∈ x ∨ ∃ a ∈ l, p a ∧ e ∈ f a := by
  intro l
  induction l with
  | nil => simp
  | cons a l ih =>
    intro x e
    rw [List.foldl_cons, ih]
    by_cases hp : p a <;> simp [hp, or_assoc]

theorem mem_foldl_inter_if {α β : Type} [DecidableEq β] (p : α → Prop) [DecidablePred p]
    (f : α → Finset β) :
    ∀ (l : List α) (x : Finset β) (e : β),
      e ∈ l.foldl (fun x a => if p a then x ∩ f a else x) x ↔ e ∈ x ∧ ∀ a ∈ l, p a → e ∈ f a := by
  intro l
  induction l with
  | nil => simp
  | cons a l ih =>
    intro x e
    rw [List.foldl_cons, ih]
    by_cases hp : p a <;> simp [hp, and_assoc]

/-- A process as the parser builds it: one variable for each access, with the domain of the access;
nothing is random. -/
structure PcOk (pc : SPc V dom) : Prop where
  len : pc.rvbls.length = pc.spec.access.length
  doms : ∀ (r : ℕ) (v : V) (a : Access), pc.rvbls[r]? = some v → pc.spec.access[r]? = some a →
    dom v = a.domsz
  norand : ∀ a ∈ pc.spec.access, a.randomWriteCk = false

theorem mem_wmap_iff {pc : PcSymm} {r : ℕ} :
    r ∈ pc.wmap ↔ ∃ a, pc.access[r]? = some a ∧ a.writeCk = true := by
  rw [PcSymm.wmap, List.mem_filter, List.mem_range]
  constructor
  · rintro ⟨h1, h2⟩
    rw [List.getElem?_eq_getElem h1] at h2 ⊢
    exact ⟨_, rfl, by simpa using h2⟩
  · rintro ⟨a, h1, h2⟩
    obtain ⟨h, -⟩ := List.getElem?_eq_some_iff.1 h1
    exact ⟨h, by simp [h1, h2]⟩

/-- The facts about the `j`-th written variable of an action. -/
theorem wfacts {pc : SPc V dom} (hok : PcOk pc) {vals : List ℕ}
    (hv : List.Forall₂ (· < ·) vals pc.spec.doms) {r j : ℕ} (hr : pc.spec.wmap[j]? = some r) :
    ∃ (v : V) (acc : Access) (g a : ℕ), pc.rvbls[r]? = some v ∧ pc.spec.access[r]? = some acc ∧
      vals[r]? = some g ∧ vals[pc.spec.access.length + j]? = some a ∧ acc.writeCk = true ∧
      a < acc.wdomsz := by
  obtain ⟨acc, h1, h2⟩ := mem_wmap_iff.1 (List.mem_of_getElem? hr)
  have hr' : r < pc.spec.access.length := (List.getElem?_eq_some_iff.1 h1).1
  have hj : j < pc.spec.wmap.length := (List.getElem?_eq_some_iff.1 hr).1
  have hlen := hv.length_eq
  have hdl : pc.spec.doms.length = pc.spec.access.length + pc.spec.wmap.length := by
    rw [PcSymm.doms, List.length_append, rdoms_length, wdoms_length]
  have h3 : r < pc.rvbls.length := by rw [hok.len]; exact hr'
  have h4 : r < vals.length := by omega
  have h5 : pc.spec.access.length + j < vals.length := by omega
  refine ⟨_, acc, _, _, List.getElem?_eq_getElem h3, h1, List.getElem?_eq_getElem h4,
    List.getElem?_eq_getElem h5, h2, ?_⟩
  have h6 := (List.forall₂_iff_get.1 hv).2 (pc.spec.access.length + j) h5 (by omega)
  simp only [List.get_eq_getElem] at h6
  refine lt_of_lt_of_eq h6 ?_
  simp only [PcSymm.doms]
  rw [List.getElem_append_right (by rw [rdoms_length]; omega)]
  simp only [PcSymm.wdoms, List.getElem_map, rdoms_length, Nat.add_sub_cancel_left]
  rw [List.getElem?_eq_some_iff] at hr
  obtain ⟨_, hr⟩ := hr
  rw [hr, h1]
  rfl

/-- The same for the variables read. -/
theorem rfacts {pc : SPc V dom} (hok : PcOk pc) {vals : List ℕ}
    (hv : List.Forall₂ (· < ·) vals pc.spec.doms) {r : ℕ} (hr : r < pc.spec.access.length) :
    ∃ (v : V) (acc : Access) (g : ℕ), pc.rvbls[r]? = some v ∧ pc.spec.access[r]? = some acc ∧
      vals[r]? = some g := by
  have hlen := hv.length_eq
  have hdl : pc.spec.doms.length = pc.spec.access.length + pc.spec.wmap.length := by
    rw [PcSymm.doms, List.length_append, rdoms_length, wdoms_length]
  have h3 : r < pc.rvbls.length := by rw [hok.len]; exact hr
  have h4 : r < vals.length := by omega
  exact ⟨_, _, _, List.getElem?_eq_getElem h3, List.getElem?_eq_getElem hr, List.getElem?_eq_getElem h4⟩

theorem wEnts_spec {pc : SPc V dom} (hok : PcOk pc) {vals : List ℕ}
    (hv : List.Forall₂ (· < ·) vals pc.spec.doms) :
    ∃ ws, pc.wEnts vals = some ws ∧ ∀ w, w ∈ ws ↔ ∃ r j : ℕ, pc.spec.wmap[j]? = some r ∧
      pc.rvbls[r]? = some w.v ∧ pc.spec.access[r]? = some w.acc ∧ vals[r]? = some w.aguard ∧
      vals[pc.spec.access.length + j]? = some w.assign := by
  have hex : ∀ e ∈ pc.spec.wmap.zipIdx, ∃ w, ((pc.rvbls[e.1]?).bind fun v =>
      (pc.spec.access[e.1]?).bind fun acc => (vals[e.1]?).bind fun g =>
        (vals[pc.spec.access.length + e.2]?).map fun a => (⟨v, acc, g, a⟩ : WEnt V)) = some w := by
    rintro ⟨r, j⟩ he
    rw [List.mk_mem_zipIdx_iff_getElem?] at he
    obtain ⟨v, acc, g, a, h1, h2, h3, h4, -⟩ := wfacts hok hv he
    exact ⟨⟨v, acc, g, a⟩, by simp [h1, h2, h3, h4]⟩
  obtain ⟨ws, hws⟩ := exists_mapM hex
  refine ⟨ws, hws, fun w => ?_⟩
  rw [mem_mapM_iff hws w]
  constructor
  · rintro ⟨⟨r, j⟩, he, hf⟩
    rw [List.mk_mem_zipIdx_iff_getElem?] at he
    simp only [Option.bind_eq_some_iff, Option.map_eq_some_iff] at hf
    obtain ⟨v, h1, acc, h2, g, h3, a, h4, rfl⟩ := hf
    exact ⟨r, j, he, h1, h2, h3, h4⟩
  · rintro ⟨r, j, he, h1, h2, h3, h4⟩
    exact ⟨(r, j), List.mk_mem_zipIdx_iff_getElem?.2 he, by simp [h1, h2, h3, h4]⟩

theorem rEnts_spec {pc : SPc V dom} (hok : PcOk pc) {vals : List ℕ}
    (hv : List.Forall₂ (· < ·) vals pc.spec.doms) :
    ∃ rs, pc.rEnts vals = some rs ∧ ∀ x, x ∈ rs ↔ ∃ r : ℕ,
      pc.rvbls[r]? = some x.1 ∧ pc.spec.access[r]? = some x.2.1 ∧ vals[r]? = some x.2.2 := by
  have hex : ∀ r ∈ List.range pc.spec.access.length, ∃ x, ((pc.rvbls[r]?).bind fun v =>
      (pc.spec.access[r]?).bind fun acc => (vals[r]?).map fun g => (v, acc, g)) = some x := by
    intro r hr
    obtain ⟨v, acc, g, h1, h2, h3⟩ := rfacts hok hv (List.mem_range.1 hr)
    exact ⟨(v, acc, g), by simp [h1, h2, h3]⟩
  obtain ⟨rs, hrs⟩ := exists_mapM hex
  refine ⟨rs, hrs, fun x => ?_⟩
  rw [mem_mapM_iff hrs x]
  constructor
  · rintro ⟨r, -, hf⟩
    simp only [Option.bind_eq_some_iff, Option.map_eq_some_iff] at hf
    obtain ⟨v, h1, acc, h2, g, h3, rfl⟩ := hf
    exact ⟨r, h1, h2, h3⟩
  · rintro ⟨r, h1, h2, h3⟩
    exact ⟨r, List.mem_range.2 (List.getElem?_eq_some_iff.1 h2).1, by simp [h1, h2, h3]⟩

/-- What an action with the given values means: its guards are the values of the readable accesses,
its writes the values of the written accesses, where the value after the last of the domain
leaves the variable unchanged. -/
def actOf (pc : SPc V dom) (vals : List ℕ) : LocalAct V where
  guards := (pc.rvbls.zip (pc.spec.access.zip vals)).filterMap fun e =>
    if e.2.1.syntReadCk then some (e.1, e.2.2) else none
  writes := ((((pc.rvbls.zip pc.spec.access).filter fun e => e.2.writeCk).zip
    (vals.drop pc.spec.access.length)).map fun e =>
      (e.1.1, if e.2 = e.1.2.domsz then none else some e.2))

theorem written_eq {pc : SPc V dom} (hlen : pc.rvbls.length = pc.spec.access.length) :
    ∀ (j : ℕ) (v : V) (a : Access), ((pc.rvbls.zip pc.spec.access).filter fun e => e.2.writeCk)[j]? = some (v, a) ↔
      ∃ r, pc.spec.wmap[j]? = some r ∧ pc.rvbls[r]? = some v ∧ pc.spec.access[r]? = some a := by
  by_cases hn : pc.spec.access.length = 0
  · have h1 : pc.spec.access = [] := List.length_eq_zero_iff.1 hn
    have h2 : pc.rvbls = [] := List.length_eq_zero_iff.1 (by omega)
    intro j v a
    simp [h1, h2]
  · have v0 : V := pc.rvbls[0]'(by omega)
    have a0 : Access := pc.spec.access[0]'(by omega)
    have hz : pc.rvbls.zip pc.spec.access =
        (List.range pc.spec.access.length).map fun r => (pc.rvbls.getD r v0, pc.spec.access.getD r a0) := by
      apply List.ext_getElem
      · simp [hlen]
      · intro i h1 h2
        simp only [List.length_zip, hlen, Nat.min_self] at h1
        simp [h1, hlen]
    have hw : ((List.range pc.spec.access.length).filter
        ((fun e : V × Access => e.2.writeCk) ∘ fun r => (pc.rvbls.getD r v0, pc.spec.access.getD r a0))) =
        pc.spec.wmap := by
      unfold PcSymm.wmap
      apply List.filter_congr
      intro r hr
      have hr := List.mem_range.1 hr
      simp [hr]
    intro j v a
    rw [hz, List.filter_map, hw, List.getElem?_map, Option.map_eq_some_iff]
    constructor
    · rintro ⟨r, h1, h2⟩
      have hr := wmap_lt (List.mem_of_getElem? h1)
      refine ⟨r, h1, ?_⟩
      simp only [Prod.mk.injEq] at h2
      rw [List.getD_eq_getElem?_getD, List.getD_eq_getElem?_getD,
        List.getElem?_eq_getElem (show r < pc.rvbls.length by omega), List.getElem?_eq_getElem hr] at h2
      rw [List.getElem?_eq_getElem (show r < pc.rvbls.length by omega), List.getElem?_eq_getElem hr]
      exact ⟨congrArg some h2.1, congrArg some h2.2⟩
    · rintro ⟨r, h1, h2, h3⟩
      refine ⟨r, h1, ?_⟩
      rw [List.getD_eq_getElem?_getD, List.getD_eq_getElem?_getD, h2, h3]
      rfl

theorem mem_zip_iff {α β : Type} {l : List α} {m : List β} {a : α} {b : β} :
    (a, b) ∈ l.zip m ↔ ∃ i : ℕ, l[i]? = some a ∧ m[i]? = some b := by
  rw [List.mem_iff_getElem?]
  simp only [List.getElem?_zip_eq_some]

theorem mem_actOf_guards {pc : SPc V dom} {vals : List ℕ} {g : V × ℕ} :
    g ∈ (actOf pc vals).guards ↔ ∃ (r : ℕ) (acc : Access), pc.rvbls[r]? = some g.1 ∧
      pc.spec.access[r]? = some acc ∧ vals[r]? = some g.2 ∧ acc.syntReadCk = true := by
  simp only [actOf, List.mem_filterMap, Prod.exists]
  constructor
  · rintro ⟨v, acc, x, h1, h2⟩
    obtain ⟨r, h3, h4⟩ := mem_zip_iff.1 h1
    obtain ⟨h4, h5⟩ := List.getElem?_zip_eq_some.1 h4
    split at h2
    · rename_i h6
      simp only [Option.some.injEq] at h2
      subst h2
      exact ⟨r, acc, h3, h4, h5, h6⟩
    · simp at h2
  · rintro ⟨r, acc, h1, h2, h3, h4⟩
    exact ⟨g.1, acc, g.2, mem_zip_iff.2 ⟨r, h1, List.getElem?_zip_eq_some.2 ⟨h2, h3⟩⟩, by simp [h4]⟩

theorem mem_actOf_writes {pc : SPc V dom} (hlen : pc.rvbls.length = pc.spec.access.length)
    {vals : List ℕ} {w : V × Option ℕ} :
    w ∈ (actOf pc vals).writes ↔ ∃ (r j : ℕ) (acc : Access) (a : ℕ), pc.spec.wmap[j]? = some r ∧
      pc.rvbls[r]? = some w.1 ∧ pc.spec.access[r]? = some acc ∧
      vals[pc.spec.access.length + j]? = some a ∧ w.2 = if a = acc.domsz then none else some a := by
  simp only [actOf, List.mem_map, Prod.exists]
  constructor
  · rintro ⟨v, acc, a, h1, rfl⟩
    obtain ⟨j, h2, h3⟩ := mem_zip_iff.1 h1
    obtain ⟨r, h4, h5, h6⟩ := (written_eq hlen j v acc).1 h2
    rw [List.getElem?_drop] at h3
    exact ⟨r, j, acc, a, h4, h5, h6, h3, rfl⟩
  · rintro ⟨r, j, acc, a, h1, h2, h3, h4, h5⟩
    refine ⟨w.1, acc, a, mem_zip_iff.2 ⟨j, (written_eq hlen j _ _).2 ⟨r, h1, h2, h3⟩, ?_⟩, ?_⟩
    · rw [List.getElem?_drop]; exact h4
    · rw [← h5]

theorem wdomsz_le (a : Access) : a.wdomsz ≤ a.domsz + 1 := by
  unfold Access.wdomsz
  split_ifs <;> omega

theorem wdomsz_readable {a : Access} (h1 : a.syntReadCk = true) : a.wdomsz ≤ max a.domsz 1 := by
  unfold Access.wdomsz
  simp only [Access.syntReadCk, Access.readCk, Access.puppetCk, Bool.and_eq_true, Bool.or_eq_true,
    decide_eq_true_eq] at h1
  split_ifs with h2 h3 h4 h5
  · omega
  · omega
  · simp [Access.pureShadowCk] at h4
    rw [h4] at h1
    simp at h1
  · rw [h5] at h1
    simp at h1
  · omega

/-- `xn_of_pc` succeeds for a valid action and denotes the enabled executions of the action. -/
theorem xnOfPc_spec {pc : SPc V dom} (hok : PcOk pc) {vals : List ℕ}
    (hv : List.Forall₂ (· < ·) vals pc.spec.doms) :
    ∃ x, xnOfPc pc vals = some x ∧ ∀ s t, (s, t) ∈ x ↔
      (actOf pc vals).Enabled s ∧ (actOf pc vals).Effect s t := by
  obtain ⟨ws, hws, hmw⟩ := wEnts_spec hok hv
  obtain ⟨rs, hrs, hmr⟩ := rEnts_spec hok hv
  -- facts about written variables
  have hw : ∀ w ∈ ws, w.acc.writeCk = true ∧ w.acc.randomWriteCk = false ∧ w.assign < w.acc.wdomsz ∧
      dom w.v = w.acc.domsz := by
    intro w hw
    obtain ⟨r, j, h1, h2, h3, h4, h5⟩ := (hmw w).1 hw
    obtain ⟨v', acc', g', a', e1, e2, e3, e4, e5, e6⟩ := wfacts hok hv h1
    rw [h3] at e2; rw [h5] at e4
    cases e2; cases e4
    exact ⟨e5, hok.norand _ (List.mem_of_getElem? h3), e6, hok.doms r _ _ h2 h3⟩
  have hread : ∀ w ∈ ws, w.acc.syntReadCk = true → w.assign ≠ w.acc.domsz := by
    intro w hww h hd
    obtain ⟨h1, h2, h3, h4⟩ := hw w hww
    unfold Access.wdomsz at h3
    rw [h1, h2] at h3
    simp only [Bool.not_true, Bool.false_eq_true, if_false] at h3
    simp only [Access.syntReadCk, Access.readCk, Access.puppetCk, Bool.and_eq_true, Bool.or_eq_true,
      decide_eq_true_eq] at h
    split_ifs at h3 with h4 h5
    · simp only [Access.pureShadowCk, decide_eq_true_eq] at h4
      rw [h4] at h; simp at h
    · rw [h5] at h; simp at h
    · omega
  have hclaim : ∀ w ∈ ws, w.acc.randomWriteCk = false → w.assign = w.acc.domsz →
      w.acc.syntWriteonlyCk = true := by
    intro w hww _ hd
    have h1 := hread w hww
    simp only [Access.syntWriteonlyCk, (hw w hww).1, Bool.and_true, Bool.not_eq_true']
    by_contra hc
    exact h1 (by simpa using hc) hd
  have hprob : (ws.any fun w => w.acc.syntReadCk && w.acc.randomWriteCk) = false := by
    rw [List.any_eq_false]
    intro w hww
    simp [(hw w hww).2.1]
  unfold xnOfPc
  rw [hws, hrs]
  simp only
  rw [if_pos hclaim, hprob]
  refine ⟨_, rfl, fun s t => ?_⟩
  simp only [Bool.false_eq_true, if_false, Bool.not_false, Bool.true_and]
  rw [mem_foldl_inter_if (fun r : V × Access × ℕ => r.2.1.syntReadonlyCk = true)]
  -- the meaning of the parts
  have hpart : ∀ w ∈ ws, (s, t) ∈ (wPart w : Finset (VSt V dom × VSt V dom)) ↔
      (w.acc.syntReadCk = true → (s w.v).val = w.aguard) ∧
      (w.assign = w.acc.domsz → t w.v = s w.v) ∧ (w.assign ≠ w.acc.domsz → (t w.v).val = w.assign) := by
    intro w hww
    obtain ⟨h1, h2, h3, h4⟩ := hw w hww
    unfold wPart
    rw [h2]
    simp only [Bool.false_eq_true, if_false]
    have h5 : w.assign ≠ w.acc.domsz → w.assign % dom w.v = w.assign := by
      intro hne
      apply Nat.mod_eq_of_lt
      have := wdomsz_le w.acc
      omega
    by_cases h6 : w.acc.syntReadCk = true <;> by_cases h7 : w.assign = w.acc.domsz <;>
      simp [h6, h7] <;> simp [h5 h7]
  have hall : (s, t) ∈ ws.foldl (fun (xn : Finset (VSt V dom × VSt V dom)) w => xn ∩ wPart w) Finset.univ ↔
      (∀ w ∈ ws, w.acc.syntReadCk = true → (s w.v).val = w.aguard) ∧
      ∀ w ∈ ws, (w.assign = w.acc.domsz → t w.v = s w.v) ∧ (w.assign ≠ w.acc.domsz → (t w.v).val = w.assign) := by
    rw [mem_foldl_inter]
    constructor
    · rintro ⟨-, h⟩
      exact ⟨fun w hww => ((hpart w hww).1 (h w hww)).1, fun w hww => ((hpart w hww).1 (h w hww)).2⟩
    · rintro ⟨h1, h2⟩
      exact ⟨Finset.mem_univ _, fun w hww => (hpart w hww).2 ⟨h1 w hww, h2 w hww⟩⟩
  have heff : (actOf pc vals).Effect s t ↔
      ∀ w ∈ ws, (w.assign = w.acc.domsz → t w.v = s w.v) ∧ (w.assign ≠ w.acc.domsz → (t w.v).val = w.assign) := by
    constructor
    · intro h w hww
      obtain ⟨r, j, h1, h2, h3, h4, h5⟩ := (hmw w).1 hww
      have := h (w.v, if w.assign = w.acc.domsz then none else some w.assign)
        ((mem_actOf_writes hok.len).2 ⟨r, j, w.acc, w.assign, h1, h2, h3, h5, rfl⟩)
      by_cases h7 : w.assign = w.acc.domsz <;> simp [h7] at this ⊢ <;> exact this
    · intro h w hww
      obtain ⟨r, j, acc, a, h1, h2, h3, h4, h5⟩ := (mem_actOf_writes hok.len).1 hww
      obtain ⟨v', acc', g', a', e1, e2, e3, e4, e5, e6⟩ := wfacts hok hv h1
      have := h ⟨w.1, acc, g', a⟩ ((hmw _).2 ⟨r, j, h1, h2, h3, e3, h4⟩)
      obtain ⟨v, o⟩ := w
      simp only at h5 this ⊢
      subst h5
      by_cases h7 : a = acc.domsz <;> simp [h7] at this ⊢ <;> exact this
  have hchg : (∃ w ∈ (actOf pc vals).writes, ∃ x, w.2 = some x ∧ (s w.1).val ≠ x) ↔
      ∃ w ∈ ws, w.assign ≠ w.acc.domsz ∧ (s w.v).val ≠ w.assign := by
    constructor
    · rintro ⟨w, hww, x, hx, hne⟩
      obtain ⟨r, j, acc, a, h1, h2, h3, h4, h5⟩ := (mem_actOf_writes hok.len).1 hww
      obtain ⟨v', acc', g', a', e1, e2, e3, e4, e5, e6⟩ := wfacts hok hv h1
      rw [h5] at hx
      split at hx
      · simp at hx
      · rename_i h7
        simp only [Option.some.injEq] at hx
        subst hx
        exact ⟨⟨w.1, acc, g', a⟩, (hmw _).2 ⟨r, j, h1, h2, h3, e3, h4⟩, h7, hne⟩
    · rintro ⟨w, hww, h7, hne⟩
      obtain ⟨r, j, h1, h2, h3, h4, h5⟩ := (hmw w).1 hww
      exact ⟨(w.v, some w.assign), (mem_actOf_writes hok.len).2
        ⟨r, j, w.acc, w.assign, h1, h2, h3, h5, by simp [h7]⟩, w.assign, rfl, hne⟩
  have hguard : (∀ g ∈ (actOf pc vals).guards, (s g.1).val = g.2) ↔
      (∀ w ∈ ws, w.acc.syntReadCk = true → (s w.v).val = w.aguard) ∧
      ∀ r ∈ rs, r.2.1.syntReadonlyCk = true → (s r.1).val = r.2.2 := by
    constructor
    · intro h
      constructor
      · intro w hww h6
        obtain ⟨r, j, h1, h2, h3, h4, h5⟩ := (hmw w).1 hww
        exact h (w.v, w.aguard) (mem_actOf_guards.2 ⟨r, w.acc, h2, h3, h4, h6⟩)
      · intro x hx h6
        obtain ⟨r, h1, h2, h3⟩ := (hmr x).1 hx
        refine h (x.1, x.2.2) (mem_actOf_guards.2 ⟨r, x.2.1, h1, h2, h3, ?_⟩)
        simp only [Access.syntReadonlyCk, Bool.and_eq_true] at h6
        exact h6.1
    · rintro ⟨h1, h2⟩ g hg
      obtain ⟨r, acc, e1, e2, e3, e4⟩ := mem_actOf_guards.1 hg
      by_cases hwr : acc.writeCk = true
      · have hm : r ∈ pc.spec.wmap := mem_wmap_iff.2 ⟨acc, e2, hwr⟩
        obtain ⟨j, hj⟩ := List.mem_iff_getElem?.1 hm
        obtain ⟨v', acc', g', a', f1, f2, f3, f4, -, -⟩ := wfacts hok hv hj
        exact h1 ⟨g.1, acc, g.2, a'⟩ ((hmw _).2 ⟨r, j, hj, e1, e2, e3, f4⟩) e4
      · exact h2 (g.1, acc, g.2) ((hmr _).2 ⟨r, e1, e2, e3⟩) (by simp [Access.syntReadonlyCk, e4, hwr])
  rw [LocalAct.Enabled, hguard, hchg, heff]
  simp only [Finset.mem_filter, Finset.mem_univ, true_and]
  split
  · rename_i hloop
    rw [Finset.mem_inter, hall, mem_foldl_union (fun w : WEnt V => (w.acc.syntWriteonlyCk && decide (w.assign < w.acc.domsz)) = true)]
    simp only [Finset.notMem_empty, false_or, Finset.mem_filter, Finset.mem_univ, true_and, Bool.and_eq_true,
      decide_eq_true_eq]
    rw [List.all_eq_true] at hloop
    have key : (∀ w ∈ ws, w.acc.syntReadCk = true → (s w.v).val = w.aguard) →
        ((∃ w ∈ ws, (w.acc.syntWriteonlyCk = true ∧ w.assign < w.acc.domsz) ∧ (s w.v).val ≠ w.assign) ↔
        ∃ w ∈ ws, w.assign ≠ w.acc.domsz ∧ (s w.v).val ≠ w.assign) := by
      intro hg
      constructor
      · rintro ⟨w, hww, ⟨h1, h2⟩, h3⟩
        exact ⟨w, hww, by omega, h3⟩
      · rintro ⟨w, hww, h1, h2⟩
        obtain ⟨f1, f2, f3, f4⟩ := hw w hww
        refine ⟨w, hww, ⟨?_, ?_⟩, h2⟩
        · simp only [Access.syntWriteonlyCk, f1, Bool.and_true, Bool.not_eq_true']
          by_contra hc
          have hr : w.acc.syntReadCk = true := by simpa using hc
          have := hloop w hww
          simp [hr, f2] at this
          exact h2 (by rw [hg w hww hr, this])
        · have := wdomsz_le w.acc
          omega
    constructor
    · rintro ⟨⟨⟨h1, h2⟩, h3⟩, h4⟩
      exact ⟨⟨⟨h1, h4⟩, (key h1).1 h3⟩, h2⟩
    · rintro ⟨⟨⟨h1, h4⟩, h3⟩, h2⟩
      exact ⟨⟨⟨h1, h2⟩, (key h1).2 h3⟩, h4⟩
  · rename_i hloop
    rw [hall]
    rw [Bool.not_eq_true, List.all_eq_false] at hloop
    obtain ⟨w, hww, hl⟩ := hloop
    obtain ⟨f1, f2, f3, f4⟩ := hw w hww
    simp [f2] at hl
    constructor
    · rintro ⟨⟨h1, h2⟩, h4⟩
      exact ⟨⟨⟨h1, h4⟩, w, hww, hread w hww hl.1, by rw [h1 w hww hl.1]; exact hl.2⟩, h2⟩
    · rintro ⟨⟨⟨h1, h4⟩, -⟩, h2⟩
      exact ⟨⟨h1, h2⟩, h4⟩

theorem pcXn_spec {net : SNet V dom} {pc : SPc V dom} (hok : PcOk pc) :
    ∀ (l : List ℕ) (xn0 : Finset (VSt V dom × VSt V dom)),
      (∀ a ∈ l, ∃ k vals, net.action a = some (k, vals) ∧
        (pc.symm = k → List.Forall₂ (· < ·) vals pc.spec.doms)) →
      ∃ x, pcXn net pc l xn0 = some x ∧ ∀ s t, (s, t) ∈ x ↔ (s, t) ∈ xn0 ∨
        ∃ a ∈ l, ∃ vals, net.action a = some (pc.symm, vals) ∧
          (actOf pc vals).Enabled s ∧ (actOf pc vals).Effect s t := by
  intro l
  induction l with
  | nil => intro xn0 _; exact ⟨xn0, rfl, by simp⟩
  | cons a l ih =>
    intro xn0 h
    obtain ⟨k, vals, h1, h2⟩ := h a (by simp)
    unfold pcXn
    rw [h1]
    simp only
    by_cases hk : pc.symm = k
    · rw [if_pos hk]
      obtain ⟨x, hx, hmx⟩ := xnOfPc_spec hok (h2 hk)
      rw [hx]
      simp only
      obtain ⟨y, hy, hmy⟩ := ih (xn0 ∪ x) (fun a ha => h a (by simp [ha]))
      refine ⟨y, hy, fun s t => ?_⟩
      rw [hmy, Finset.mem_union, hmx, or_assoc]
      apply or_congr_right
      simp only [List.mem_cons, exists_eq_or_imp, h1, Option.some.injEq, Prod.mk.injEq]
      apply or_congr_left
      constructor
      · intro h
        exact ⟨vals, ⟨hk.symm, rfl⟩, h⟩
      · rintro ⟨vals, ⟨-, rfl⟩, h⟩
        exact h
    · rw [if_neg hk]
      obtain ⟨y, hy, hmy⟩ := ih xn0 (fun a ha => h a (by simp [ha]))
      refine ⟨y, hy, fun s t => ?_⟩
      rw [hmy]
      apply or_congr_right
      simp only [List.mem_cons, exists_eq_or_imp, h1, Option.some.injEq, Prod.mk.injEq]
      constructor
      · exact .inr
      · rintro (⟨_, ⟨h3, -⟩, -⟩ | h)
        · exact absurd h3.symm hk
        · exact h

theorem mem_pcPart {full : Bool} {wvbls : List V} {x : Finset (VSt V dom × VSt V dom)}
    {s t : VSt V dom} :
    (s, t) ∈ pcPart full wvbls x ↔ (s, t) ∈ x ∨
      ((∀ v ∈ wvbls, t v = s v) ∧ (full = true → ∀ t', (s, t') ∉ x)) := by
  unfold pcPart
  simp only [Finset.mem_union]
  rw [or_comm]
  apply or_congr_right
  cases full with
  | false =>
    simp only [Bool.false_eq_true, if_false]
    rw [mem_foldl_inter (fun v => Finset.univ.filter fun e : VSt V dom × VSt V dom => e.2 v = e.1 v)]
    simp
  | true =>
    simp only [if_true, Finset.mem_filter, true_implies]
    rw [mem_foldl_inter (fun v => Finset.univ.filter fun e : VSt V dom × VSt V dom => e.2 v = e.1 v)]
    simp

/-- The loop over the processes. -/
theorem syncLoop_spec {net : SNet V dom} {full : Bool} {all : List ℕ}
    (X : SPc V dom → Finset (VSt V dom × VSt V dom)) :
    ∀ (l : List (SPc V dom)) (written : Finset V) (xn : Finset (VSt V dom × VSt V dom)),
      (∀ pc ∈ l, pcXn net pc all ∅ = some (X pc)) →
      (l.flatMap SPc.wvbls).Nodup → (∀ pc ∈ l, ∀ v ∈ pc.wvbls, v ∉ written) →
      ∃ w' xn', syncLoop net full all l written xn = some (w', xn') ∧
        (∀ v, v ∈ w' ↔ v ∈ written ∨ ∃ pc ∈ l, v ∈ pc.wvbls) ∧
        ∀ s t, (s, t) ∈ xn' ↔ (s, t) ∈ xn ∧ ∀ pc ∈ l, (s, t) ∈ pcPart full pc.wvbls (X pc) := by
  intro l
  induction l with
  | nil => intro written xn _ _ _; exact ⟨written, xn, rfl, by simp, by simp⟩
  | cons pc l ih =>
    intro written xn hX hnd hwr
    rw [List.flatMap_cons, List.nodup_append] at hnd
    obtain ⟨hn1, hn2, hn3⟩ := hnd
    unfold syncLoop
    rw [if_pos ⟨hn1, hwr pc (by simp)⟩, hX pc (by simp)]
    simp only
    obtain ⟨w', xn', h1, h2, h3⟩ := ih (written ∪ pc.wvbls.toFinset) (xn ∩ pcPart full pc.wvbls (X pc))
      (fun p hp => hX p (by simp [hp])) hn2 (by
        intro p hp v hv
        simp only [Finset.mem_union, List.mem_toFinset, not_or]
        refine ⟨hwr p (by simp [hp]) v hv, fun hc => ?_⟩
        exact hn3 v hc v (List.mem_flatMap.2 ⟨p, hp, hv⟩) rfl)
    refine ⟨w', xn', h1, fun v => ?_, fun s t => ?_⟩
    · rw [h2]
      simp only [Finset.mem_union, List.mem_toFinset, List.mem_cons, exists_eq_or_imp, or_assoc]
    · rw [h3]
      simp only [Finset.mem_inter, List.mem_cons, forall_eq_or_imp, and_assoc]

theorem syncLoop_fail {net : SNet V dom} {full : Bool} {all : List ℕ} :
    ∀ (l : List (SPc V dom)) (written : Finset V) (xn : Finset (VSt V dom × VSt V dom)),
      ¬ ((l.flatMap SPc.wvbls).Nodup ∧ ∀ pc ∈ l, ∀ v ∈ pc.wvbls, v ∉ written) →
      syncLoop net full all l written xn = none := by
  intro l
  induction l with
  | nil => intro written xn h; simp at h
  | cons pc l ih =>
    intro written xn h
    unfold syncLoop
    split
    · rename_i hc
      split
      · rfl
      · apply ih
        rintro ⟨h1, h2⟩
        apply h
        simp only [Finset.mem_union, List.mem_toFinset, not_or] at h2
        refine ⟨?_, ?_⟩
        · rw [List.flatMap_cons, List.nodup_append]
          refine ⟨hc.1, h1, ?_⟩
          rintro v hv w hw rfl
          obtain ⟨p, hp, hpv⟩ := List.mem_flatMap.1 hw
          exact (h2 p hp v hpv).2 hv
        · intro p hp v hv
          rcases List.mem_cons.1 hp with rfl | hp
          · exact hc.2 v hv
          · exact (h2 p hp v hv).1
    · rfl

theorem filterMap_getElem? {α β : Type} {f : α → Option β} :
    ∀ {l : List α}, (∀ e ∈ l, ∃ w, f e = some w) → ∀ j : ℕ, (l.filterMap f)[j]? = l[j]?.bind f := by
  intro l
  induction l with
  | nil => simp
  | cons a l ih =>
    intro h j
    obtain ⟨b, hb⟩ := h a (by simp)
    rw [List.filterMap_cons, hb]
    cases j with
    | zero => simp [hb]
    | succ j => simp only [List.getElem?_cons_succ]; exact ih (fun e he => h e (by simp [he])) j

/-- The variables whose access allows writing. -/
def writtenOf (pc : SPc V dom) : List V :=
  ((pc.rvbls.zip pc.spec.access).filter fun e => e.2.writeCk).map Prod.fst

theorem wvbls_eq {pc : SPc V dom} (hlen : pc.rvbls.length = pc.spec.access.length) :
    pc.wvbls = writtenOf pc := by
  have hall : ∀ r ∈ pc.spec.wmap, ∃ v, pc.rvbls[r]? = some v := by
    intro r hr
    have := wmap_lt hr
    exact ⟨_, List.getElem?_eq_getElem (by omega)⟩
  apply List.ext_getElem?
  intro j
  unfold SPc.wvbls writtenOf
  rw [filterMap_getElem? hall, List.getElem?_map]
  ext v
  rw [Option.bind_eq_some_iff, Option.map_eq_some_iff]
  constructor
  · rintro ⟨r, h1, h2⟩
    have hr := wmap_lt (List.mem_of_getElem? h1)
    exact ⟨(v, pc.spec.access[r]), (written_eq hlen j _ _).2 ⟨r, h1, h2, List.getElem?_eq_getElem hr⟩, rfl⟩
  · rintro ⟨⟨v', a⟩, h1, rfl⟩
    obtain ⟨r, h2, h3, -⟩ := (written_eq hlen j _ _).1 h1
    exact ⟨r, h2, h3⟩

theorem actOf_writes_fst {pc : SPc V dom} (hok : PcOk pc) {vals : List ℕ}
    (hv : List.Forall₂ (· < ·) vals pc.spec.doms) :
    (actOf pc vals).writes.map Prod.fst = writtenOf pc := by
  have hl : ((pc.rvbls.zip pc.spec.access).filter fun e => e.2.writeCk).length ≤
      (vals.drop pc.spec.access.length).length := by
    have h1 : (writtenOf pc).length = pc.wvbls.length := by rw [wvbls_eq hok.len]
    have h2 : pc.wvbls.length ≤ pc.spec.wmap.length := List.length_filterMap_le _ _
    have hdl : pc.spec.doms.length = pc.spec.access.length + pc.spec.wmap.length := by
      rw [PcSymm.doms, List.length_append, rdoms_length, wdoms_length]
    have := hv.length_eq
    rw [List.length_drop]
    simp only [writtenOf, List.length_map] at h1
    omega
  simp only [actOf, List.map_map, writtenOf]
  have h3 : (fun e : (V × Access) × ℕ => e.1.1) = Prod.fst ∘ Prod.fst := rfl
  conv_lhs => rw [show (Prod.fst ∘ fun e : (V × Access) × ℕ =>
    (e.1.1, if e.2 = e.1.2.domsz then none else some e.2)) = Prod.fst ∘ Prod.fst from rfl]
  rw [← List.map_map, List.map_fst_zip hl]

theorem actOf_write_lt {pc : SPc V dom} (hok : PcOk pc) {vals : List ℕ}
    (hv : List.Forall₂ (· < ·) vals pc.spec.doms) {v : V} {x : ℕ}
    (h : (v, some x) ∈ (actOf pc vals).writes) : x < dom v := by
  obtain ⟨r, j, acc, a, h1, h2, h3, h4, h5⟩ := (mem_actOf_writes hok.len).1 h
  obtain ⟨v', acc', g', a', e1, e2, e3, e4, e5, e6⟩ := wfacts hok hv h1
  rw [h3] at e2; rw [h4] at e4
  cases e2; cases e4
  rw [hok.doms r _ _ h2 h3]
  have := wdomsz_le acc
  simp only at h5
  split at h5
  · simp at h5
  · simp only [Option.some.injEq] at h5
    omega

/-- Writes to different variables can be done at once. -/
theorem writes_exist (s : VState V dom) :
    ∀ W : List (V × Option ℕ), (W.map Prod.fst).Nodup → (∀ v x, (v, some x) ∈ W → x < dom v) →
      ∃ t : VState V dom, (∀ w ∈ W, match w.2 with
        | some x => (t w.1).val = x
        | none => t w.1 = s w.1) ∧ ∀ v, v ∉ W.map Prod.fst → t v = s v := by
  intro W
  induction W with
  | nil => intro _ _; exact ⟨s, by simp, by simp⟩
  | cons w W ih =>
    obtain ⟨v, o⟩ := w
    intro hnd hlt
    rw [List.map_cons, List.nodup_cons] at hnd
    obtain ⟨t, h1, h2⟩ := ih hnd.2 (fun v x h => hlt v x (by simp [h]))
    have hne : ∀ w ∈ W, w.1 ≠ v := by
      intro w hw he
      exact hnd.1 (List.mem_map.2 ⟨w, hw, he⟩)
    cases o with
    | none =>
      refine ⟨t, ?_, ?_⟩
      · intro w hw
        rcases List.mem_cons.1 hw with rfl | hw
        · exact h2 v hnd.1
        · exact h1 w hw
      · intro v' hv'
        simp only [List.map_cons, List.mem_cons, not_or] at hv'
        exact h2 v' hv'.2
    | some x =>
      refine ⟨Function.update t v ⟨x, hlt v x (by simp)⟩, ?_, ?_⟩
      · intro w hw
        rcases List.mem_cons.1 hw with rfl | hw
        · simp
        · have := h1 w hw
          rw [Function.update_of_ne (hne w hw)]
          exact this
      · intro v' hv'
        simp only [List.map_cons, List.mem_cons, not_or] at hv'
        rw [Function.update_of_ne hv'.1]
        exact h2 v' hv'.2

end Verif.Proofs
