import Verif.Model.ActXn
import Verif.Spec.ActXn
import Verif.Proofs.Sync
import Verif.Props.Index

/-! Lemmas for property C102: the transitions kept for actions. -/

set_option linter.unusedSectionVars false

namespace Verif.Proofs
open Verif.Model Verif.Spec Verif.Props

variable {V : Type} [Fintype V] [DecidableEq V] {dom : V → ℕ}

/-- A system as the parser builds it: numbered process symmetries whose links exchange accesses of the
same kind, processes with one variable of the right domain for each access, no random writes. -/
structure ANetOk (net : ANet V dom) : Prop where
  comm : ∃ l npre, commitPcs 0 0 l = (net.comms, net.n, npre) ∧ ∀ pc ∈ l, LinksWf pc
  spec : ∀ p ∈ net.pcs, p.2.spec = p.1.pc
  pcs : ∀ p ∈ net.pcs, PcOk p.2

theorem netActOf_pcc {comms : List PcComm} {a : ℕ} {act : ActSymm} (h : netActOf comms a = some act) :
    pcOfAct? a comms = some act.pcc := by
  unfold netActOf at h
  obtain ⟨c, h1, rfl⟩ := Option.map_eq_some_iff.1 h
  exact h1

theorem ANetOk.act {net : ANet V dom} (hok : ANetOk net) {b : ℕ} (hb : b < net.n) :
    ∃ act r, netActOf net.comms b = some act ∧ List.Forall₂ (· < ·) act.vals act.pcc.pc.doms ∧
      repActIdx net.comms net.n b = some r ∧ r ≤ b ∧ repActIdx net.comms net.n r = some r ∧
      ∃ act', netActOf net.comms r = some act' ∧ act'.pcc = act.pcc := by
  obtain ⟨l, npre, h1, h2⟩ := hok.comm
  obtain ⟨-, h3, h4⟩ := C24_action_ids l _ _ _ h1
  obtain ⟨c, hc, vals, hv, rfl⟩ := h4 b hb
  obtain ⟨-, act, h5, h6, h7⟩ := h3 c hc vals hv
  obtain ⟨vals', hv', h8, h9, -⟩ := C25_representative l _ _ _ h1 h2 c hc vals hv
  obtain ⟨-, act', h10, h11, -⟩ := h3 c hc vals' hv'
  refine ⟨act, _, h5, ?_, (h8 _ le_rfl).1, h9, (h8 _ le_rfl).2, act', h10, by rw [h11, h6]⟩
  rw [h6, h7]
  exact valsOk_iff.1 hv

theorem ANetOk.norand {net : ANet V dom} (hok : ANetOk net) {p : PcComm × SPc V dom} (hp : p ∈ net.pcs) :
    p.1.pc.randomWriteCk = false := by
  unfold PcSymm.randomWriteCk
  rw [List.any_eq_false, ← hok.spec p hp]
  intro a ha
  simp [(hok.pcs p hp).norand a ha]

/-- The transitions of one process for one action. -/
def part (net : ANet V dom) (b : ℕ) (p : PcComm × SPc V dom) : PairSet V dom :=
  match netActOf net.comms b with
  | some act => if p.1 = act.pcc then (xnOfPc p.2 act.vals).getD ∅ else ∅
  | none => ∅

theorem part_get {net : ANet V dom} (hok : ANetOk net) {b : ℕ} (hb : b < net.n) {act : ActSymm}
    (ha : netActOf net.comms b = some act) {p : PcComm × SPc V dom} (hp : p ∈ net.pcs)
    (h : p.1 = act.pcc) : xnOfPc p.2 act.vals = some (part net b p) := by
  obtain ⟨act', r, h1, h2, -⟩ := hok.act hb
  rw [ha] at h1; cases h1
  rw [← h, ← hok.spec p hp] at h2
  obtain ⟨x, hx, -⟩ := xnOfPc_spec (hok.pcs p hp) h2
  simp [part, ha, h, hx]

theorem mem_part {net : ANet V dom} (hok : ANetOk net) {b : ℕ} (hb : b < net.n)
    {p : PcComm × SPc V dom} (hp : p ∈ net.pcs) {s t : VSt V dom} :
    (s, t) ∈ part net b p ↔ ∃ act, netActOf net.comms b = some act ∧ act.pcc = p.1 ∧
      (actOf p.2 act.vals).Enabled s ∧ (actOf p.2 act.vals).Effect s t := by
  obtain ⟨act, r, h1, h2, -⟩ := hok.act hb
  unfold part
  rw [h1]
  simp only
  by_cases h : p.1 = act.pcc
  · rw [← h, ← hok.spec p hp] at h2
    obtain ⟨x, hx, h3⟩ := xnOfPc_spec (hok.pcs p hp) h2
    rw [if_pos h, hx, Option.getD_some, h3]
    constructor
    · intro h4; exact ⟨act, rfl, h.symm, h4⟩
    · rintro ⟨act', e, -, h4⟩; cases e; exact h4
  · rw [if_neg h]
    constructor
    · simp
    · rintro ⟨act', e, h4, -⟩; cases e; exact absurd h4.symm h

theorem mapM_get {α β : Type} {f : α → Option β} {g : α → β} :
    ∀ {l : List α}, (∀ a ∈ l, f a = some (g a)) → l.mapM f = some (l.map g) := by
  intro l
  induction l with
  | nil => intro _; rfl
  | cons a l ih =>
    intro h
    rw [List.mapM_cons, h a (by simp), ih fun b hb => h b (by simp [hb])]
    rfl

theorem make_eq {net : ANet V dom} (hok : ANetOk net) {b : ℕ} (hb : b < net.n) :
    net.make b = some (net.pcs.map (part net b)) := by
  obtain ⟨act, r, h1, -⟩ := hok.act hb
  unfold ANet.make
  rw [h1, Option.bind_some]
  apply mapM_get
  intro p hp
  by_cases h : p.1 = act.pcc
  · rw [if_pos h]; exact part_get hok hb h1 hp h
  · rw [if_neg h]; simp [part, h1, h]

theorem zipWith_map_map {α β γ δ : Type} (f : β → γ → δ) (g : α → β) (h : α → γ) (l : List α) :
    List.zipWith f (l.map g) (l.map h) = l.map fun a => f (g a) (h a) := by
  induction l with
  | nil => rfl
  | cons a l ih => simp [ih]

theorem zipWith_self_map {α γ δ : Type} (f : α → γ → δ) (h : α → γ) (l : List α) :
    List.zipWith f l (l.map h) = l.map fun a => f a (h a) := by
  induction l with
  | nil => rfl
  | cons a l ih => simp [ih]

theorem orXn_map (net : ANet V dom) (F G : PcComm × SPc V dom → PairSet V dom) :
    orXn (net.pcs.map F) (net.pcs.map G) = net.pcs.map fun p => F p ∪ G p :=
  zipWith_map_map _ _ _ _

/-- `self_disable` of one entry. -/
def sdOf (net : ANet V dom) (p : PcComm × SPc V dom) (f : PairSet V dom) : PairSet V dom :=
  dropFrom f (imgOf (f ∩ net.mask p.2))

theorem selfDisable_map (net : ANet V dom) (F : PcComm × SPc V dom → PairSet V dom) :
    net.selfDisable (net.pcs.map F) = net.pcs.map fun p => sdOf net p (F p) :=
  zipWith_self_map _ _ _

theorem mem_xfmla (net : ANet V dom) (F : PcComm × SPc V dom → PairSet V dom) (e : VSt V dom × VSt V dom) :
    e ∈ net.xfmla (net.pcs.map F) ↔ ∃ p ∈ net.pcs, e ∈ F p ∧ e ∈ net.mask p.2 := by
  unfold ANet.xfmla
  rw [zipWith_self_map,
    mem_foldl_union (fun e : (PcComm × SPc V dom) × PairSet V dom => e.2 ≠ ∅) (fun e => e.2 ∩ net.mask e.1.2)]
  simp only [Finset.notMem_empty, false_or, List.mem_map]
  constructor
  · rintro ⟨_, ⟨p, hp, rfl⟩, -, h⟩
    exact ⟨p, hp, Finset.mem_inter.1 h⟩
  · rintro ⟨p, hp, h⟩
    exact ⟨_, ⟨p, hp, rfl⟩, Finset.ne_empty_of_mem h.1, Finset.mem_inter.2 h⟩

/-- Smoothing of a set of variables. -/
theorem mem_smooth_foldl :
    ∀ (l : List V) (Q : V → Prop) (x : PairSet V dom),
      (∀ e, e ∈ x ↔ ∀ v, ¬ Q v → e.2 v = e.1 v) →
      ∀ e, e ∈ l.foldl (fun m v => smoothBoth v m) x ↔ ∀ v, ¬ (Q v ∨ v ∈ l) → e.2 v = e.1 v := by
  intro l
  induction l with
  | nil => intro Q x h e; simp [h e]
  | cons w l ih =>
    intro Q x h e
    rw [List.foldl_cons, ih (fun v => Q v ∨ v = w) _ _ e]
    · simp [or_assoc]
    · intro e
      simp only [smoothBoth, Finset.mem_filter, Finset.mem_univ, true_and, h]
      constructor
      · rintro ⟨a, b, h1⟩ v hv
        have h2 := h1 v (fun hq => hv (Or.inl hq))
        have hvw : v ≠ w := fun hw => hv (Or.inr hw)
        rwa [Function.update_of_ne hvw, Function.update_of_ne hvw] at h2
      · intro h1
        refine ⟨e.1 w, e.1 w, fun v hv => ?_⟩
        by_cases hvw : v = w
        · subst hvw; simp
        · rw [Function.update_of_ne hvw, Function.update_of_ne hvw]
          exact h1 v (by simp [hv, hvw])

/-- The variables that a step of the process may change: those it writes and the random ones. -/
def mayChange (net : ANet V dom) (pc : SPc V dom) : List V := writtenOf pc ++ net.random

theorem mem_mask {net : ANet V dom} {pc : SPc V dom} (hok : PcOk pc) {s t : VSt V dom} :
    (s, t) ∈ net.mask pc ↔ ∀ v, v ∉ mayChange net pc → t v = s v := by
  unfold ANet.mask
  rw [mem_smooth_foldl net.random (fun v => False ∨ v ∈ pc.wvbls) _ (mem_smooth_foldl pc.wvbls
    (fun _ => False) _ (by intro e; simp [funext_iff])), wvbls_eq hok.len]
  simp [mayChange, not_or]

/-- The actions represented by `a`. -/
def repsOf (net : ANet V dom) (a : ℕ) : List ℕ :=
  (List.range net.n).filter fun b => repActIdx net.comms net.n b = some a

theorem repd_eq {net : ANet V dom} (hok : ANetOk net) {a : ℕ} (ha : a < net.n) :
    net.repd a = some (repsOf net a) := by
  obtain ⟨l, npre, h1, h2⟩ := hok.comm
  obtain ⟨tab, h3, -, h4⟩ := C25_represented_actions l _ _ _ h1 h2
  unfold ANet.repd
  rw [h3, Option.bind_some, h4 a ha]
  rfl

/-- Whether the symmetry of an action has random writes. -/
def isRnd (net : ANet V dom) (b : ℕ) : Bool :=
  match pcOfAct? b net.comms with
  | some c => c.pc.randomWriteCk
  | none => false

/-- `self_disable` of one entry unless there are random writes. -/
def sdUnless (net : ANet V dom) (b : ℕ) (p : PcComm × SPc V dom) (f : PairSet V dom) : PairSet V dom :=
  if isRnd net b then f else sdOf net p f

/-- What the table holds for one process after the actions `bs`. -/
def cum (net : ANet V dom) (p : PcComm × SPc V dom) (bs : List ℕ) : PairSet V dom :=
  bs.foldl (fun f b => sdUnless net b p (f ∪ part net b p)) ∅

/-- The table after the first `m` actions. -/
def tabAt (net : ANet V dom) (m : ℕ) : List (List (PairSet V dom)) :=
  (List.range net.n).map fun a => net.pcs.map fun p =>
    cum net p ((List.range m).filter fun b => repActIdx net.comms net.n b = some a)

theorem filter_reps_succ {net : ANet V dom} (a m : ℕ) :
    ((List.range (m + 1)).filter fun b => repActIdx net.comms net.n b = some a) =
      ((List.range m).filter fun b => repActIdx net.comms net.n b = some a) ++
        if repActIdx net.comms net.n m = some a then [m] else [] := by
  rw [List.range_succ, List.filter_append]
  congr 1
  by_cases h : repActIdx net.comms net.n m = some a <;> simp [h]

theorem filter_reps_self {net : ANet V dom} (hok : ANetOk net) {m : ℕ} (hm : m < net.n) :
    ((List.range m).filter fun b => repActIdx net.comms net.n b = some m) = [] := by
  rw [List.filter_eq_nil_iff]
  intro b hb
  rw [List.mem_range] at hb
  obtain ⟨act, r, -, -, h1, h2, -⟩ := hok.act (show b < net.n by omega)
  rw [h1]
  simp only [Option.some.injEq, decide_eq_true_eq]
  omega

theorem cacheStep_tab {net : ANet V dom} (hok : ANetOk net) {m : ℕ} (hm : m < net.n) :
    net.cacheStep (tabAt net m) m = some (tabAt net (m + 1)) := by
  obtain ⟨act, r, h1, h2, h3, h4, -⟩ := hok.act hm
  have hlen : (tabAt net m).length = net.n := by simp [tabAt]
  have hr : isRnd net m = act.pcc.pc.randomWriteCk := by simp [isRnd, netActOf_pcc h1]
  unfold ANet.cacheStep
  rw [make_eq hok hm, Option.bind_some, h3, Option.bind_some, netActOf_pcc h1, Option.bind_some,
    if_pos (by rw [hlen]; exact ⟨by omega, hm⟩)]
  simp only [Option.some.injEq]
  -- entries of both sides
  have hget : ∀ (k a : ℕ), (tabAt net k)[a]? = if a < net.n then some (net.pcs.map fun p =>
      cum net p ((List.range k).filter fun b => repActIdx net.comms net.n b = some a)) else none := by
    intro k a
    unfold tabAt
    rw [List.getElem?_map]
    by_cases ha : a < net.n
    · rw [if_pos ha, List.getElem?_range ha]; rfl
    · rw [if_neg ha, List.getElem?_eq_none (by simpa using ha)]; rfl
  have hempty : net.falseXn = net.pcs.map fun p => cum net p [] := rfl
  have hsd : ∀ F : PcComm × SPc V dom → PairSet V dom,
      (if act.pcc.pc.randomWriteCk then net.pcs.map F else net.selfDisable (net.pcs.map F)) =
        net.pcs.map fun p => sdUnless net m p (F p) := by
    intro F
    unfold sdUnless
    rw [hr]
    split
    · rfl
    · rw [selfDisable_map]
  have hmod : ∀ (tab : List (List (PairSet V dom))) (a : ℕ),
      (if act.pcc.pc.randomWriteCk then tab else tab.modify r net.selfDisable)[a]? =
        if a = r then (tab[a]?).map fun x => if act.pcc.pc.randomWriteCk then x else net.selfDisable x
        else tab[a]? := by
    intro tab a
    split
    · split <;> simp
    · rw [List.getElem?_modify]
      by_cases h : a = r
      · subst h; simp
      · simp [h, Ne.symm h]
  apply List.ext_getElem?
  intro a
  rw [hmod, hget (m + 1)]
  simp only [filter_reps_succ, h3, Option.some.injEq]
  by_cases hrm : r = m
  · subst hrm
    rw [if_pos rfl]
    by_cases har : a = r
    · subst har
      rw [if_pos rfl, if_pos hm, if_pos rfl, List.getElem?_set_self (by omega), Option.map_some, hsd]
      simp only [filter_reps_self hok hm, List.nil_append, cum, List.foldl_cons, List.foldl_nil,
        Finset.empty_union]
    · rw [if_neg har, if_neg (Ne.symm har), List.getElem?_set_ne (Ne.symm har), hget, List.append_nil]
  · rw [if_neg hrm]
    by_cases har : a = r
    · subst har
      rw [if_pos rfl, if_pos (by omega), if_pos rfl, List.getElem?_modify_eq,
        List.getElem?_set_ne (Ne.symm hrm), hget, if_pos (by omega)]
      show some (if act.pcc.pc.randomWriteCk then orXn _ _ else net.selfDisable (orXn _ _)) = _
      rw [orXn_map, hsd]
      simp only [cum, List.foldl_append, List.foldl_cons, List.foldl_nil]
    · rw [if_neg har, if_neg (Ne.symm har), List.getElem?_modify, List.append_nil]
      simp only [if_neg (Ne.symm har), Option.map_eq_map, Option.map_id']
      by_cases ham : a = m
      · subst ham
        rw [List.getElem?_set_self (by omega), if_pos hm, filter_reps_self hok hm, hempty]
      · rw [List.getElem?_set_ne (Ne.symm ham), hget]

/-- The table: for each representative the represented actions are added in ascending order, with
`self_disable` after each. -/
theorem table_eq {net : ANet V dom} (hok : ANetOk net) : net.table = some (tabAt net net.n) := by
  unfold ANet.table
  have key : ∀ m ≤ net.n, (List.range m).foldlM net.cacheStep (List.replicate net.n net.falseXn) =
      some (tabAt net m) := by
    intro m
    induction m with
    | zero =>
      intro _
      simp only [List.range_zero, List.foldlM_nil, tabAt, List.filter_nil, List.map_const',
        List.length_range, Option.pure_def]
      rfl
    | succ m ih =>
      intro hm
      rw [List.range_succ, List.foldlM_append, ih (by omega)]
      simp only [Option.bind_eq_bind, Option.bind_some, List.foldlM_cons, List.foldlM_nil,
        cacheStep_tab hok (show m < net.n by omega)]
      rfl
  exact key net.n le_rfl

theorem table_get {net : ANet V dom} (hok : ANetOk net) {a : ℕ} (ha : a < net.n) :
    net.table.bind (·[a]?) = some (net.pcs.map fun p => cum net p (repsOf net a)) := by
  rw [table_eq hok, Option.bind_some, tabAt, List.getElem?_map, List.getElem?_range ha]
  rfl

theorem orAll_eq {net : ANet V dom} (hok : ANetOk net) :
    ∀ (bs : List ℕ) (F : PcComm × SPc V dom → PairSet V dom), (∀ b ∈ bs, b < net.n) →
      net.orAll (net.pcs.map F) bs =
        some (net.pcs.map fun p => bs.foldl (fun f b => f ∪ part net b p) (F p)) := by
  intro bs
  induction bs with
  | nil => intro F _; rfl
  | cons b bs ih =>
    intro F h
    unfold ANet.orAll
    rw [List.foldlM_cons, make_eq hok (h b (by simp)), Option.map_some, orXn_map]
    exact ih _ fun c hc => h c (by simp [hc])

theorem mem_foldl_parts {net : ANet V dom} {p : PcComm × SPc V dom} {e : VSt V dom × VSt V dom} :
    ∀ (bs : List ℕ) (f : PairSet V dom),
      e ∈ bs.foldl (fun f b => f ∪ part net b p) f ↔ e ∈ f ∨ ∃ b ∈ bs, e ∈ part net b p := by
  intro bs
  induction bs with
  | nil => simp
  | cons b bs ih => intro f; rw [List.foldl_cons, ih]; simp [or_assoc]

/-- The union of the transitions of the represented actions. -/
def plain (net : ANet V dom) (a : ℕ) (p : PcComm × SPc V dom) : PairSet V dom :=
  (repsOf net a).foldl (fun f b => f ∪ part net b p) ∅

theorem mem_plain {net : ANet V dom} {a : ℕ} {p : PcComm × SPc V dom} {e : VSt V dom × VSt V dom} :
    e ∈ plain net a p ↔ ∃ b ∈ repsOf net a, e ∈ part net b p := by
  unfold plain
  rw [mem_foldl_parts]
  simp

theorem mem_repsOf {net : ANet V dom} {a b : ℕ} :
    b ∈ repsOf net a ↔ b < net.n ∧ repActIdx net.comms net.n b = some a := by
  simp [repsOf]

/-- No transition of the process for one of the actions represented by `a` ends where one of them
starts. -/
def NoChain (net : ANet V dom) (a : ℕ) (p : PcComm × SPc V dom) : Prop :=
  ∀ b ∈ repsOf net a, ∀ b' ∈ repsOf net a, ∀ s t u, (s, t) ∈ part net b p → (s, t) ∈ net.mask p.2 →
    (t, u) ∉ part net b' p

theorem sdOf_of_noChain {net : ANet V dom} {p : PcComm × SPc V dom} {f : PairSet V dom}
    (h : ∀ s t u, (s, t) ∈ f → (s, t) ∈ net.mask p.2 → (t, u) ∉ f) : sdOf net p f = f := by
  unfold sdOf dropFrom
  rw [Finset.filter_eq_self]
  rintro ⟨t, u⟩ htu hc
  obtain ⟨⟨s, t'⟩, h1, h2⟩ := Finset.mem_image.1 hc
  obtain ⟨h1, h3⟩ := Finset.mem_inter.1 h1
  simp only at h2
  subst h2
  exact h s t' u h1 h3 htu

theorem cum_of_noChain {net : ANet V dom} {a : ℕ} {p : PcComm × SPc V dom} (h : NoChain net a p) :
    cum net p (repsOf net a) = plain net a p := by
  have key : ∀ (bs done : List ℕ), (∀ b ∈ done ++ bs, b ∈ repsOf net a) → ∀ f : PairSet V dom,
      (∀ e, e ∈ f ↔ ∃ b ∈ done, e ∈ part net b p) →
      bs.foldl (fun f b => sdUnless net b p (f ∪ part net b p)) f =
        bs.foldl (fun f b => f ∪ part net b p) f := by
    intro bs
    induction bs with
    | nil => intro _ _ _ _; rfl
    | cons b bs ih =>
      intro done hb f hf
      have hf' : ∀ e, e ∈ f ∪ part net b p ↔ ∃ c ∈ done ++ [b], e ∈ part net c p := by
        intro e
        rw [Finset.mem_union, hf]
        simp only [List.mem_append, List.mem_singleton, or_and_right, exists_or, exists_eq_left]
      have hs : sdUnless net b p (f ∪ part net b p) = f ∪ part net b p := by
        unfold sdUnless
        split
        · rfl
        · apply sdOf_of_noChain
          intro s t u h1 h2 h3
          obtain ⟨c, hc, h1⟩ := (hf' _).1 h1
          obtain ⟨d, hd, h3⟩ := (hf' _).1 h3
          refine h c (hb c ?_) d (hb d ?_) s t u h1 h2 h3
          · simp only [List.mem_append, List.mem_cons] at hc ⊢; tauto
          · simp only [List.mem_append, List.mem_cons] at hd ⊢; tauto
      rw [List.foldl_cons, List.foldl_cons, hs]
      exact ih (done ++ [b]) (by intro c hc; exact hb c (by simpa using hc)) _ hf'
  exact key (repsOf net a) [] (by simp) ∅ (by simp)

/-- The condition of the theorems: the actions represented by `a` assign the same values. -/
def SameAssign (net : ANet V dom) (a : ℕ) : Prop :=
  ∀ b ∈ repsOf net a, ∀ b' ∈ repsOf net a, ∀ act act', netActOf net.comms b = some act →
    netActOf net.comms b' = some act' →
    act.vals.drop act.pcc.pc.access.length = act'.vals.drop act'.pcc.pc.access.length

theorem noChain_of_sameAssign {net : ANet V dom} (hok : ANetOk net) {a : ℕ} (h : SameAssign net a)
    {p : PcComm × SPc V dom} (hp : p ∈ net.pcs) : NoChain net a p := by
  intro b hb b' hb' s t u h1 h2 h3
  obtain ⟨act, e1, e2, -, h4⟩ := (mem_part hok (mem_repsOf.1 hb).1 hp).1 h1
  obtain ⟨act', e1', e2', h5, -⟩ := (mem_part hok (mem_repsOf.1 hb').1 hp).1 h3
  have h6 := h b hb b' hb' act act' e1 e1'
  rw [e2, e2', ← hok.spec p hp] at h6
  have h7 : (actOf p.2 act'.vals).writes = (actOf p.2 act.vals).writes := by
    unfold actOf; simp only [h6]
  obtain ⟨-, w, hw, x, hx, hne⟩ := h5
  rw [h7] at hw
  have h8 := h4 w hw
  rw [hx] at h8
  exact hne h8

end Verif.Proofs
