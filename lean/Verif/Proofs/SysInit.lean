import Verif.Model.SysInit
import Verif.Props.ActXn
import Verif.Props.ActRead

/-! Lemmas for property C103: the actions of a system and its relation. -/

set_option linter.unusedSectionVars false

namespace Verif.Proofs
open Verif.Model Verif.Spec Verif.Props

variable {V : Type} [Fintype V] [DecidableEq V] {dom : V → ℕ}

/-- A system as the parser builds it: `ANetOk`; no value for keeping a variable; each symmetry has a
process with distinct variables, or if several accesses of a process mean the same variable, all of them are
readable; different symmetries have different numbers of actions. -/
structure ISysOk (sys : ISys V dom) : Prop where
  net : ANetOk sys.net
  distinct : ∀ g ∈ sys.groups, ∀ g' ∈ sys.groups, g.1 = g'.1 → g = g'
  keep : ∀ g ∈ sys.groups, NoKeep g.1.pc
  rep : ∀ g ∈ sys.groups, representativePc g.2 ≠ none ∨ ∀ p ∈ g.2, AliasOk p.pc

/-- All processes of a symmetry have the transitions of the same actions, from all states. -/
structure Uniform (sys : ISys V dom) (A : PcComm → List (List ℕ)) : Prop where
  valid : ∀ g ∈ sys.groups, ∀ w ∈ A g.1, List.Forall₂ (· < ·) w g.1.pc.doms
  closed : ∀ g ∈ sys.groups, ∀ p ∈ g.2, ∀ s, s ∈ p.closed
  puppet : ∀ g ∈ sys.groups, ∀ p ∈ g.2, ∀ e, e ∈ p.puppet ↔
    ∃ w ∈ A g.1, ∃ x, xnOfPc p.pc w = some x ∧ e ∈ x

theorem mem_pcs {sys : ISys V dom} {q : PcComm × SPc V dom} :
    q ∈ sys.net.pcs ↔ ∃ g ∈ sys.groups, ∃ p ∈ g.2, q = (g.1, p.pc) := by
  simp only [ISys.net, List.mem_flatMap, List.mem_map]
  constructor
  · rintro ⟨g, hg, p, hp, rfl⟩; exact ⟨g, hg, p, hp, rfl⟩
  · rintro ⟨g, hg, p, hp, rfl⟩; exact ⟨g, hg, p, hp, rfl⟩

theorem mem_foldl_sup {α β : Type} [DecidableEq β] (f : α → Finset β) :
    ∀ (l : List α) (x : Finset β) (e : β),
      e ∈ l.foldl (fun x a => x ∪ f a) x ↔ e ∈ x ∨ ∃ a ∈ l, e ∈ f a := by
  intro l
  induction l with
  | nil => simp
  | cons a l ih => intro x e; rw [List.foldl_cons, ih]; simp [or_assoc]

theorem mem_directXn {sys : ISys V dom} {e : VSt V dom × VSt V dom} :
    e ∈ sys.directXn ↔ ∃ g ∈ sys.groups, ∃ p ∈ g.2, e ∈ p.puppet ∧ e.1 ∈ p.closed ∧
      e ∈ sys.net.mask p.pc := by
  unfold ISys.directXn ISys.groupXn
  rw [mem_foldl_sup]
  simp only [Finset.notMem_empty, false_or]
  refine exists_congr fun g => and_congr_right fun _ => ?_
  rw [mem_foldl_sup]
  simp only [Finset.notMem_empty, false_or, Finset.mem_inter, Finset.mem_filter, and_assoc]

/-- An action enabled in one process of a symmetry has a transition in any process of the symmetry
whose variables are distinct. -/
theorem enabled_other {p q : SPc V dom} (hp : PcOk p) (hq : PcOk q) (hs : p.spec = q.spec)
    (hnd : q.rvbls.Nodup) {w : List ℕ} (hw : List.Forall₂ (· < ·) w q.spec.doms) {s : VSt V dom}
    (h : (actOf p w).Enabled s) :
    ∃ s' t' : VSt V dom, (actOf q w).Enabled s' ∧ (actOf q w).Effect s' t' := by
  classical
  have hex : ∀ v : V, ∃ x : Fin (dom v), ∀ (r : ℕ) (v' : V), q.rvbls[r]? = some v → p.rvbls[r]? = some v' →
      x.val = (s v').val := by
    intro v
    by_cases hv : v ∈ q.rvbls
    · obtain ⟨r, hr⟩ := List.mem_iff_getElem?.1 hv
      have hrl : r < q.spec.access.length := by
        rw [← hq.len]; exact (List.getElem?_eq_some_iff.1 hr).1
      have hrp : r < p.rvbls.length := by rw [hp.len, hs]; exact hrl
      have e1 := hq.doms r v _ hr (List.getElem?_eq_getElem hrl)
      have e2 := hp.doms r _ (q.spec.access[r]) (List.getElem?_eq_getElem hrp) (by
        rw [hs]; exact List.getElem?_eq_getElem hrl)
      refine ⟨⟨(s p.rvbls[r]).val, by rw [e1, ← e2]; exact (s _).isLt⟩, ?_⟩
      intro r' v' h1 h2
      have : r' = r := by
        obtain ⟨a1, a2⟩ := List.getElem?_eq_some_iff.1 h1
        obtain ⟨b1, b2⟩ := List.getElem?_eq_some_iff.1 hr
        exact (List.Nodup.getElem_inj_iff hnd).1 (a2.trans b2.symm)
      subst this
      rw [List.getElem?_eq_getElem hrp] at h2
      cases h2
      rfl
    · exact ⟨s v, fun r v' h1 _ => absurd (List.mem_of_getElem? h1) hv⟩
  choose f hf using hex
  have hfp : ∀ (r : ℕ) (v v' : V), q.rvbls[r]? = some v → p.rvbls[r]? = some v' → (f v).val = (s v').val :=
    fun r v v' h1 h2 => hf v r v' h1 h2
  have hpget : ∀ r : ℕ, r < q.rvbls.length → ∃ v', p.rvbls[r]? = some v' := by
    intro r hr
    have : r < p.rvbls.length := by rw [hp.len, hs, ← hq.len]; exact hr
    exact ⟨_, List.getElem?_eq_getElem this⟩
  have hen : (actOf q w).Enabled f := by
    obtain ⟨h1, wr, h2, x, h3, h4⟩ := h
    constructor
    · intro g hg
      obtain ⟨r, acc, e1, e2, e3, e4⟩ := mem_actOf_guards.1 hg
      obtain ⟨v', hv'⟩ := hpget r (List.getElem?_eq_some_iff.1 e1).1
      rw [hfp r _ _ e1 hv']
      exact h1 (v', g.2) (mem_actOf_guards.2 ⟨r, acc, hv', by rw [hs]; exact e2, e3, e4⟩)
    · obtain ⟨r, j, acc, a, e1, e2, e3, e4, e5⟩ := (mem_actOf_writes hp.len).1 h2
      rw [hs] at e1 e3 e4
      have hr : r < q.rvbls.length := by rw [hq.len]; exact (List.getElem?_eq_some_iff.1 e3).1
      refine ⟨(q.rvbls[r], wr.2), (mem_actOf_writes hq.len).2
        ⟨r, j, acc, a, e1, List.getElem?_eq_getElem hr, e3, e4, e5⟩, x, h3, ?_⟩
      simp only
      rw [hfp r _ _ (List.getElem?_eq_getElem hr) e2]
      exact h4
  have hwnd : ((actOf q w).writes.map Prod.fst).Nodup := by
    rw [actOf_writes_fst hq hw]
    unfold writtenOf
    have : ((q.rvbls.zip q.spec.access).map Prod.fst).Nodup := by
      rw [List.map_fst_zip (by rw [hq.len])]; exact hnd
    exact this.sublist (List.Sublist.map _ List.filter_sublist)
  obtain ⟨t, ht, -⟩ := writes_exist f (actOf q w).writes hwnd (fun v x hx => actOf_write_lt hq hw hx)
  exact ⟨f, t, hen, ht⟩

/-- The actions found for one symmetry. -/
theorem symmActions_uniform {sys : ISys V dom} (hok : ISysOk sys) {A : PcComm → List (List ℕ)}
    (hA : Uniform sys A) {pk : Picker V dom} (hpk : Picker.Ok pk) {g : PcComm × List (PcXn V dom)}
    (hg : g ∈ sys.groups) :
    ∃ S, symmActions pk g.1 g.2 = some S ∧ ∀ a, a ∈ S ↔ ∃ w ∈ A g.1, a = actId g.1 w ∧
      ∃ p ∈ g.2, ∃ s t : VSt V dom, (actOf p.pc w).Enabled s ∧ (actOf p.pc w).Effect s t := by
  have hmem : ∀ p ∈ g.2, PcOk p.pc ∧ p.pc.spec = g.1.pc := fun p hp =>
    have h1 : (g.1, p.pc) ∈ sys.net.pcs := mem_pcs.2 ⟨g, hg, p, hp, rfl⟩
    ⟨hok.net.pcs _ h1, hok.net.spec _ h1⟩
  by_cases hnone : representativePc g.2 = none
  · have hal : ∀ p ∈ g.2, AliasOk p.pc := (hok.rep g hg).resolve_left fun h => h hnone
    obtain ⟨S, h1, h2⟩ := C97_symm_actions_all hpk (c := g.1) hnone
      (fun p hp => ⟨(hmem p hp).2, (hmem p hp).1, hal p hp⟩) (hok.keep g hg)
    refine ⟨S, h1, fun a => ?_⟩
    rw [h2]
    constructor
    · rintro ⟨w, hw, rfl, p, hp, s, t, hst, -, hgd, has⟩
      obtain ⟨hpok, hps⟩ := hmem p hp
      obtain ⟨w', hw', x, hx, hstx⟩ := (hA.puppet g hg p hp _).1 hst
      have hv' : List.Forall₂ (· < ·) w' p.pc.spec.doms := by rw [hps]; exact hA.valid g hg w' hw'
      obtain ⟨hg', ha'⟩ := xn_describes hpok hv' hx hstx
      obtain rfl := vals_unique hpok (by rw [hps]; exact hok.keep g hg) (by rw [hps]; exact hw) hv' hgd has hg' ha'
      obtain ⟨y, hy, hiff⟩ := xnOfPc_spec hpok hv'
      rw [hx] at hy; cases hy
      exact ⟨w, hw', rfl, p, hp, s, t, (hiff s t).1 hstx⟩
    · rintro ⟨w, hw, rfl, p, hp, s, t, hst⟩
      obtain ⟨hpok, hps⟩ := hmem p hp
      have hv : List.Forall₂ (· < ·) w p.pc.spec.doms := by rw [hps]; exact hA.valid g hg w hw
      obtain ⟨y, hy, hiff⟩ := xnOfPc_spec hpok hv
      obtain ⟨hg', ha'⟩ := xn_describes hpok hv hy ((hiff s t).2 hst)
      exact ⟨w, hA.valid g hg w hw, rfl, p, hp, s, t, (hA.puppet g hg p hp _).2 ⟨w, hw, y, hy, (hiff s t).2 hst⟩,
        hA.closed g hg p hp s, hg', ha'⟩
  obtain ⟨q, hq⟩ := Option.ne_none_iff_exists'.1 hnone
  have hqm : q ∈ g.2 := List.mem_of_find?_eq_some hq
  have hn := List.find?_some hq
  simp only [Bool.and_eq_true, decide_eq_true_eq] at hn
  obtain ⟨hqok, hqs⟩ := hmem q hqm
  have hval : ∀ w ∈ A g.1, List.Forall₂ (· < ·) w q.pc.spec.doms := by
    rw [hqs]; exact hA.valid g hg
  obtain ⟨L, h1, -, h3⟩ := C98_actions_back hpk hqok (aliasOk_of_nodup hn.1) (by rw [hqs]; exact hok.keep g hg) hval
    (hA.puppet g hg q hqm)
  refine ⟨(L.map (actId g.1)).toFinset, ?_, fun a => ?_⟩
  · unfold symmActions
    rw [hq]
    simp only [h1, Option.map_some]
  · rw [List.mem_toFinset, List.mem_map]
    simp only [h3]
    constructor
    · rintro ⟨w, ⟨hw, x, s, t, hx, hst, -⟩, rfl⟩
      obtain ⟨y, hy, hiff⟩ := xnOfPc_spec hqok (hval w hw)
      rw [hx] at hy; cases hy
      exact ⟨w, hw, rfl, q, hqm, s, t, (hiff s t).1 hst⟩
    · rintro ⟨w, hw, rfl, p, hp, s, -, hen, -⟩
      obtain ⟨hpok, hps⟩ := hmem p hp
      obtain ⟨s', t', h4, h5⟩ := enabled_other hpok hqok (hps.trans hqs.symm) hn.1 (hval w hw) hen
      obtain ⟨y, hy, hiff⟩ := xnOfPc_spec hqok (hval w hw)
      exact ⟨w, ⟨hw, y, s', t', hy, (hiff s' t').2 ⟨h4, h5⟩, hA.closed g hg q hqm s'⟩, rfl⟩

/-- The number of a valid action of a symmetry of the system. -/
theorem actId_facts {sys : ISys V dom} (hok : ISysOk sys) {g : PcComm × List (PcXn V dom)}
    (hg : g ∈ sys.groups) {w : List ℕ} (hw : List.Forall₂ (· < ·) w g.1.pc.doms) :
    actId g.1 w < sys.n ∧ ∃ act, netActOf sys.net.comms (actId g.1 w) = some act ∧ act.pcc = g.1 ∧
      act.vals = w := by
  obtain ⟨l, npre, h1, -⟩ := hok.net.comm
  exact (C24_action_ids l _ _ _ h1).2.1 g.1 (List.mem_map.2 ⟨g, hg, rfl⟩) w (valsOk_iff.2 hw)

/-- The list of actions of the system. -/
theorem actions_uniform {sys : ISys V dom} (hok : ISysOk sys) {A : PcComm → List (List ℕ)}
    (hA : Uniform sys A) {pk : Picker V dom} (hpk : Picker.Ok pk) :
    ∃ l, sys.actions pk = some l ∧ ∀ a, a ∈ l ↔ ∃ g ∈ sys.groups, ∃ w ∈ A g.1,
      repActIdx sys.net.comms sys.n (actId g.1 w) = some a ∧
      ∃ p ∈ g.2, ∃ s t : VSt V dom, (actOf p.pc w).Enabled s ∧ (actOf p.pc w).Effect s t := by
  have h1 : ∀ g ∈ sys.groups, ∃ l, ((symmActions pk g.1 g.2).bind fun S =>
      (arr S).mapM (repActIdx sys.net.comms sys.n)) = some l ∧ ∀ a, a ∈ l ↔ ∃ w ∈ A g.1,
        repActIdx sys.net.comms sys.n (actId g.1 w) = some a ∧
        ∃ p ∈ g.2, ∃ s t : VSt V dom, (actOf p.pc w).Enabled s ∧ (actOf p.pc w).Effect s t := by
    intro g hg
    obtain ⟨S, e1, e2⟩ := symmActions_uniform hok hA hpk hg
    have hsome : ∀ b ∈ arr S, ∃ r, repActIdx sys.net.comms sys.n b = some r := by
      intro b hb
      obtain ⟨w, hw, rfl, -⟩ := (e2 b).1 (mem_arr.1 hb)
      obtain ⟨hlt, -⟩ := actId_facts hok hg (hA.valid g hg w hw)
      obtain ⟨act, r, -, -, h, -⟩ := hok.net.act hlt
      exact ⟨r, h⟩
    obtain ⟨l, hl⟩ := exists_mapM hsome
    refine ⟨l, by rw [e1, Option.bind_some, hl], fun a => ?_⟩
    rw [mem_mapM_iff hl]
    constructor
    · rintro ⟨b, hb, h⟩
      obtain ⟨w, hw, rfl, h2⟩ := (e2 b).1 (mem_arr.1 hb)
      exact ⟨w, hw, h, h2⟩
    · rintro ⟨w, hw, h, h2⟩
      exact ⟨_, mem_arr.2 ((e2 _).2 ⟨w, hw, rfl, h2⟩), h⟩
  obtain ⟨ls, hls⟩ := exists_mapM fun g hg => (h1 g hg).imp fun l h => h.1
  refine ⟨arr ls.flatten.toFinset, by unfold ISys.actions; rw [hls]; rfl, fun a => ?_⟩
  rw [mem_arr, List.mem_toFinset, List.mem_flatten]
  constructor
  · rintro ⟨l, hl, ha⟩
    obtain ⟨g, hg, h⟩ := (mem_mapM_iff hls l).1 hl
    obtain ⟨l', e1, e2⟩ := h1 g hg
    rw [h] at e1; cases e1
    exact ⟨g, hg, (e2 a).1 ha⟩
  · rintro ⟨g, hg, h⟩
    obtain ⟨l', e1, e2⟩ := h1 g hg
    exact ⟨l', (mem_mapM_iff hls l').2 ⟨g, hg, e1⟩, (e2 a).2 h⟩

theorem mem_xfmla_get (net : ANet V dom) {x : List (PairSet V dom)} (hx : x.length = net.pcs.length)
    (e : VSt V dom × VSt V dom) :
    e ∈ net.xfmla x ↔ ∃ (i : ℕ) (p : PcComm × SPc V dom) (X : PairSet V dom), net.pcs[i]? = some p ∧
      x[i]? = some X ∧ e ∈ X ∧ e ∈ net.mask p.2 := by
  unfold ANet.xfmla
  rw [mem_foldl_union (fun e : (PcComm × SPc V dom) × PairSet V dom => e.2 ≠ ∅)
    (fun e => e.2 ∩ net.mask e.1.2)]
  simp only [Finset.notMem_empty, false_or]
  have hz : List.zipWith (fun p f => (p, f)) net.pcs x = net.pcs.zip x := rfl
  rw [hz]
  constructor
  · rintro ⟨⟨p, X⟩, hm, -, h⟩
    obtain ⟨i, h1, h2⟩ := mem_zip_iff.1 hm
    exact ⟨i, p, X, h1, h2, Finset.mem_inter.1 h⟩
  · rintro ⟨i, p, X, h1, h2, h⟩
    exact ⟨(p, X), mem_zip_iff.2 ⟨i, h1, h2⟩, Finset.ne_empty_of_mem h.1, Finset.mem_inter.2 h⟩

end Verif.Proofs
