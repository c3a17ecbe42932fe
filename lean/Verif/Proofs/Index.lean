import Verif.Model.Index
import Mathlib.Tactic.Ring
import Mathlib.Data.List.Lex
import Mathlib.Data.List.Forall2

/-! Mixed radix numbers and offsets of process symmetries. -/

namespace Verif.Proofs
open Verif.Model

/-- Every value is below its domain size. -/
abbrev InDoms (vals doms : List ℕ) : Prop := List.Forall₂ (· < ·) vals doms

theorem foldl_mul (l : List ℕ) (a : ℕ) : l.foldl (· * ·) a = a * l.prod := by
  induction l generalizing a with
  | nil => simp
  | cons x l ih => rw [List.foldl_cons, ih, List.prod_cons]; ring

theorem horner_acc (vals doms : List ℕ) (h : vals.length = doms.length) (acc : ℕ) :
    (vals.zip doms).foldl (fun acc p => acc * p.2 + p.1) acc =
      acc * doms.prod + indexOfState vals doms := by
  induction vals generalizing doms acc with
  | nil => cases doms with
    | nil => simp [indexOfState]
    | cons => simp at h
  | cons v vals ih =>
    cases doms with
    | nil => simp at h
    | cons d doms =>
      have hl : vals.length = doms.length := by simpa using h
      unfold indexOfState
      simp only [List.zip_cons_cons, List.foldl_cons]
      rw [ih doms hl, ih doms hl, List.prod_cons]
      ring

theorem index_nil (ds : List ℕ) : indexOfState [] ds = 0 := by simp [indexOfState]

theorem index_cons {v d : ℕ} {vs ds : List ℕ} (h : vs.length = ds.length) :
    indexOfState (v :: vs) (d :: ds) = v * ds.prod + indexOfState vs ds := by
  rw [indexOfState, List.zip_cons_cons, List.foldl_cons, horner_acc vs ds h]
  simp

theorem index_append {a b da db : List ℕ} (ha : a.length = da.length) (hb : b.length = db.length) :
    indexOfState (a ++ b) (da ++ db) = indexOfState a da * db.prod + indexOfState b db := by
  induction a generalizing da with
  | nil => cases da with
    | nil => simp [index_nil]
    | cons => simp at ha
  | cons v a ih =>
    cases da with
    | nil => simp at ha
    | cons d da =>
      have ha : a.length = da.length := by simpa using ha
      rw [List.cons_append, List.cons_append, index_cons (by simp [ha, hb]), index_cons ha, ih ha,
        List.prod_append]
      ring

theorem index_lt {vs ds : List ℕ} (h : InDoms vs ds) : indexOfState vs ds < ds.prod := by
  induction h with
  | nil => simp [index_nil]
  | @cons v d vs ds hv ht ih =>
    rw [index_cons ht.length_eq, List.prod_cons]
    calc v * ds.prod + indexOfState vs ds < v * ds.prod + ds.prod := by omega
      _ = (v + 1) * ds.prod := by ring
      _ ≤ d * ds.prod := Nat.mul_le_mul_right _ hv

theorem state_aux (idx : ℕ) (ds : List ℕ) :
    ds.foldr (fun d p => (p.2 % d :: p.1, p.2 / d)) (([] : List ℕ), idx) =
      (stateOfIndex idx ds, idx / ds.prod) := by
  induction ds with
  | nil => simp [stateOfIndex]
  | cons d ds ih =>
    unfold stateOfIndex
    rw [List.foldr_cons, ih]
    simp [Nat.div_div_eq_div_mul, Nat.mul_comm]

theorem state_nil (idx : ℕ) : stateOfIndex idx [] = [] := rfl

theorem state_cons (idx d : ℕ) (ds : List ℕ) :
    stateOfIndex idx (d :: ds) = (idx / ds.prod % d) :: stateOfIndex idx ds := by
  conv_lhs => unfold stateOfIndex
  rw [List.foldr_cons, state_aux]

theorem state_length (idx : ℕ) (ds : List ℕ) : (stateOfIndex idx ds).length = ds.length := by
  induction ds with
  | nil => rfl
  | cons d ds ih => rw [state_cons, List.length_cons, List.length_cons, ih]

theorem state_add (v k : ℕ) (ds : List ℕ) :
    stateOfIndex (v * ds.prod + k) ds = stateOfIndex k ds := by
  induction ds generalizing v with
  | nil => rfl
  | cons d ds ih =>
    rw [state_cons, state_cons, List.prod_cons, ← Nat.mul_assoc, ih (v * d)]
    congr 1
    rcases Nat.eq_zero_or_pos ds.prod with h | h
    · simp [h]
    · rw [Nat.add_comm, Nat.add_mul_div_right _ _ h, Nat.add_mul_mod_self_right]

theorem state_index {vs ds : List ℕ} (h : InDoms vs ds) :
    stateOfIndex (indexOfState vs ds) ds = vs := by
  induction h with
  | nil => rfl
  | @cons v d vs ds hv ht ih =>
    have hlt := index_lt ht
    rw [index_cons ht.length_eq, state_cons, state_add, ih]
    congr 1
    rw [Nat.add_comm, Nat.add_mul_div_right _ _ (by omega), Nat.div_eq_of_lt hlt, Nat.zero_add,
      Nat.mod_eq_of_lt hv]

theorem index_state {ds : List ℕ} {idx : ℕ} (h : idx < ds.prod) :
    InDoms (stateOfIndex idx ds) ds ∧ indexOfState (stateOfIndex idx ds) ds = idx := by
  induction ds generalizing idx with
  | nil =>
    have : idx = 0 := by simpa using h
    subst this
    exact ⟨List.Forall₂.nil, rfl⟩
  | cons d ds ih =>
    rw [List.prod_cons] at h
    have hp : 0 < ds.prod := by
      rcases Nat.eq_zero_or_pos ds.prod with h' | h'
      · rw [h'] at h; simp at h
      · exact h'
    have hd : 0 < d := by
      rcases Nat.eq_zero_or_pos d with h' | h'
      · rw [h'] at h; simp at h
      · exact h'
    have hm := ih (idx := idx % ds.prod) (Nat.mod_lt _ hp)
    have e : stateOfIndex idx ds = stateOfIndex (idx % ds.prod) ds := by
      conv_lhs => rw [← Nat.div_add_mod idx ds.prod, Nat.mul_comm, state_add]
    have hq : idx / ds.prod < d := by
      rw [Nat.div_lt_iff_lt_mul hp]; exact h
    rw [state_cons, e]
    refine ⟨List.Forall₂.cons (Nat.mod_lt _ hd) hm.1, ?_⟩
    rw [index_cons hm.1.length_eq, hm.2, Nat.mod_eq_of_lt hq]
    have := Nat.div_add_mod idx ds.prod
    rw [Nat.mul_comm] at this
    exact this

theorem index_inj {a b ds : List ℕ} (ha : InDoms a ds) (hb : InDoms b ds)
    (h : indexOfState a ds = indexOfState b ds) : a = b := by
  rw [← state_index ha, h, state_index hb]

theorem index_mono {a b ds : List ℕ} (ha : InDoms a ds) (hb : InDoms b ds) (h : a < b) :
    indexOfState a ds < indexOfState b ds := by
  induction ha generalizing b with
  | nil => cases hb; exact absurd h (lt_irrefl _)
  | @cons v d vs ds hv ht ih =>
    cases hb with
    | @cons w _ ws _ hw hwt =>
      rw [index_cons ht.length_eq, index_cons hwt.length_eq]
      rcases List.cons_lt_cons_iff.1 h with h | ⟨rfl, h'⟩
      · have := index_lt ht
        calc v * ds.prod + indexOfState vs ds < v * ds.prod + ds.prod := by omega
          _ = (v + 1) * ds.prod := by ring
          _ ≤ w * ds.prod := Nat.mul_le_mul_right _ h
          _ ≤ _ := Nat.le_add_right _ _
      · have := ih hwt h'; omega

theorem index_le {a b ds : List ℕ} (ha : InDoms a ds) (hb : InDoms b ds) (h : a ≤ b) :
    indexOfState a ds ≤ indexOfState b ds := by
  rcases h.lt_or_eq with h | h
  · exact (index_mono ha hb h).le
  · rw [h]

theorem preDomsz_eq (pc : PcSymm) : pc.preDomsz = pc.rdoms.prod := by
  simp [PcSymm.preDomsz, foldl_mul]

theorem imgDomsz_eq (pc : PcSymm) : pc.imgDomsz = pc.wdoms.prod := by
  simp [PcSymm.imgDomsz, foldl_mul]

theorem doms_prod (pc : PcSymm) : pc.doms.prod = pc.preDomsz * pc.imgDomsz := by
  rw [preDomsz_eq, imgDomsz_eq, PcSymm.doms, List.prod_append]

theorem commit_mem {nt np : ℕ} {l : List PcSymm} {c : PcComm}
    (hc : c ∈ (commitPcs nt np l).1) :
    nt ≤ c.actOff ∧ c.actOff + c.pc.doms.prod ≤ (commitPcs nt np l).2.1 ∧
      np ≤ c.preOff ∧ c.preOff + c.pc.rdoms.prod ≤ (commitPcs nt np l).2.2 := by
  have mono : ∀ (l : List PcSymm) (nt np : ℕ), nt ≤ (commitPcs nt np l).2.1 ∧
      np ≤ (commitPcs nt np l).2.2 := by
    intro l
    induction l with
    | nil => intro nt np; exact ⟨le_rfl, le_rfl⟩
    | cons pc l ih =>
      intro nt np
      have := ih (nt + pc.preDomsz * pc.imgDomsz) (np + pc.preDomsz)
      exact ⟨by simp only [commitPcs]; omega, by simp only [commitPcs]; omega⟩
  induction l generalizing nt np with
  | nil => simp [commitPcs] at hc
  | cons pc l ih =>
    simp only [commitPcs, List.mem_cons] at hc
    have hm := mono l (nt + pc.preDomsz * pc.imgDomsz) (np + pc.preDomsz)
    rcases hc with rfl | hc
    · simp only [commitPcs, doms_prod, ← preDomsz_eq]
      exact ⟨le_rfl, hm.1, le_rfl, hm.2⟩
    · obtain ⟨h1, h2, h3, h4⟩ := ih hc
      simp only [commitPcs]
      exact ⟨by omega, h2, by omega, h4⟩

theorem commit_head {nt np : ℕ} {l : List PcSymm} {c : PcComm} {t : List PcComm}
    (h : (commitPcs nt np l).1 = c :: t) : c.actOff = nt := by
  cases l with
  | nil => simp [commitPcs] at h
  | cons pc l =>
    simp only [commitPcs, List.cons.injEq] at h
    rw [← h.1]

theorem commit_pcs (nt np : ℕ) (l : List PcSymm) : (commitPcs nt np l).1.map (·.pc) = l := by
  induction l generalizing nt np with
  | nil => rfl
  | cons pc l ih => simp [commitPcs, ih]

/-- The owner of an action index is found. -/
theorem pcOfAct_eq {nt np : ℕ} {l : List PcSymm} {c : PcComm} {idx : ℕ}
    (hc : c ∈ (commitPcs nt np l).1) (h1 : c.actOff ≤ idx) (h2 : idx < c.actOff + c.pc.doms.prod) :
    pcOfAct? idx (commitPcs nt np l).1 = some c := by
  induction l generalizing nt np with
  | nil => simp [commitPcs] at hc
  | cons pc l ih =>
    simp only [commitPcs, List.mem_cons] at hc
    simp only [commitPcs, pcOfAct?]
    rcases hr : (commitPcs (nt + pc.preDomsz * pc.imgDomsz) (np + pc.preDomsz) l).1 with _ | ⟨c', t⟩
    · rw [hr] at hc
      have : c = ⟨pc, nt, np⟩ := by simpa using hc
      rw [this]; rfl
    · have ho := commit_head hr
      rcases hc with rfl | hc
      · unfold pcOfAct
        rw [if_pos]
        rw [ho, ← doms_prod]; exact h2
      · have := (commit_mem hc).1
        unfold pcOfAct
        rw [if_neg (by omega)]
        have := ih hc
        rw [hr] at this
        exact this

theorem owner_exists {nt np : ℕ} {l : List PcSymm} {idx : ℕ} (h1 : nt ≤ idx)
    (h2 : idx < (commitPcs nt np l).2.1) :
    ∃ c ∈ (commitPcs nt np l).1, c.actOff ≤ idx ∧ idx < c.actOff + c.pc.doms.prod := by
  induction l generalizing nt np with
  | nil => simp [commitPcs] at h2; omega
  | cons pc l ih =>
    by_cases h : idx < nt + pc.preDomsz * pc.imgDomsz
    · exact ⟨⟨pc, nt, np⟩, by simp [commitPcs], h1, by rw [doms_prod]; exact h⟩
    · obtain ⟨c, hc, h⟩ := ih (nt := nt + pc.preDomsz * pc.imgDomsz) (np := np + pc.preDomsz)
        (by omega) h2
      exact ⟨c, by simp [commitPcs, hc], h⟩

/-- Precondition ranges of distinct process symmetries do not overlap. -/
theorem preOff_inj {nt np : ℕ} {l : List PcSymm} {c c' : PcComm}
    (hc : c ∈ (commitPcs nt np l).1) (hc' : c' ∈ (commitPcs nt np l).1) {g g' : ℕ}
    (hg : g < c.pc.rdoms.prod) (hg' : g' < c'.pc.rdoms.prod)
    (h : c.preOff + g = c'.preOff + g') : c = c' := by
  induction l generalizing nt np with
  | nil => simp [commitPcs] at hc
  | cons pc l ih =>
    simp only [commitPcs, List.mem_cons] at hc hc'
    rcases hc with rfl | hc <;> rcases hc' with rfl | hc'
    · rfl
    · have := (commit_mem hc').2.2.1
      simp only [← preDomsz_eq] at hg h; omega
    · have := (commit_mem hc).2.2.1
      simp only [← preDomsz_eq] at hg' h; omega
    · exact ih hc hc'

theorem swapPreImg_take {n : ℕ} (wm : List ℕ) (w : ℕ) (vals : List ℕ) (hw : n ≤ w)
    (hr : ∀ r ∈ wm, r < n) (hl : w + wm.length ≤ vals.length) :
    (swapPreImg wm w vals).take n =
      (wm.zip (vals.drop w)).foldl (fun g p => g.set p.1 p.2) (vals.take n) := by
  induction wm generalizing w vals with
  | nil => simp [swapPreImg]
  | cons r wm ih =>
    have hwl : w < vals.length := by simp at hl; omega
    have hrn := hr r (by simp)
    unfold swapPreImg
    rw [ih (w + 1) _ (by omega) (fun r h => hr r (by simp [h])) (by simp at hl ⊢; omega)]
    have e1 : ((vals.set r (vals.getD w 0)).set w (vals.getD r 0)).drop (w + 1) =
        vals.drop (w + 1) := by
      rw [List.drop_set_of_lt (by omega), List.drop_set_of_lt (by omega)]
    have e2 : ((vals.set r (vals.getD w 0)).set w (vals.getD r 0)).take n =
        (vals.take n).set r (vals.getD w 0) := by
      rw [List.take_set_of_le (by omega), List.take_set]
    rw [e1, e2, List.drop_eq_getElem_cons hwl, List.zip_cons_cons, List.foldl_cons]
    simp [List.getD_eq_getElem?_getD, hwl]

theorem wmap_lt {pc : PcSymm} {r : ℕ} (h : r ∈ pc.wmap) : r < pc.access.length := by
  have := (List.mem_filter.1 h).1
  simpa using this

theorem rdoms_length (pc : PcSymm) : pc.rdoms.length = pc.access.length := by
  simp [PcSymm.rdoms]

theorem wdoms_length (pc : PcSymm) : pc.wdoms.length = pc.wmap.length := by
  simp [PcSymm.wdoms]

end Verif.Proofs
