import Verif.Spec.ActRead
import Verif.Proofs.ActionMean

/-!
Lemmas for the way from transitions back to actions.
-/

set_option linter.unusedSectionVars false

namespace Verif.Proofs

open Verif.Model Verif.Spec

variable {V : Type} [Fintype V] [DecidableEq V] {dom : V → ℕ}

theorem nodup_get {α : Type} {l : List α} (h : l.Nodup) {i j : ℕ} {a : α} (h1 : l[i]? = some a)
    (h2 : l[j]? = some a) : i = j :=
  (List.getElem?_inj (List.getElem?_eq_some_iff.1 h1).1 h).1 (h1.trans h2.symm)

theorem wpairs_get {pc : SPc V dom} (hlen : pc.rvbls.length = pc.spec.access.length) {j : ℕ} {e : V × Access} :
    pc.wpairs[j]? = some e ↔
      ∃ r, pc.spec.wmap[j]? = some r ∧ pc.rvbls[r]? = some e.1 ∧ pc.spec.access[r]? = some e.2 := by
  have hall : ∀ l : List ℕ, (∀ r ∈ l, r < pc.spec.access.length) → ∀ (j : ℕ),
      (l.filterMap fun r => (pc.rvbls[r]?).bind fun v => (pc.spec.access[r]?).map fun a => (v, a))[j]? = some e ↔
      ∃ r, l[j]? = some r ∧ pc.rvbls[r]? = some e.1 ∧ pc.spec.access[r]? = some e.2 := by
    intro l
    induction l with
    | nil => simp
    | cons a l ih =>
      intro hl j
      have ha := hl a (by simp)
      have ha' : a < pc.rvbls.length := by omega
      rw [List.filterMap_cons, List.getElem?_eq_getElem ha', List.getElem?_eq_getElem ha]
      simp only [Option.bind_some, Option.map_some]
      rcases j with _ | j
      · simp only [List.getElem?_cons_zero, Option.some.injEq]
        constructor
        · rintro rfl
          exact ⟨a, rfl, by simp [ha'], by simp [ha]⟩
        · rintro ⟨r, rfl, h1, h2⟩
          rw [List.getElem?_eq_getElem ha'] at h1
          rw [List.getElem?_eq_getElem ha] at h2
          rw [Option.some.injEq] at h1 h2
          exact Prod.ext h1 h2
      · simp only [List.getElem?_cons_succ]
        exact ih (fun r hr => hl r (by simp [hr])) j
  exact hall _ (fun r hr => wmap_lt hr) j

theorem wpairs_fst {pc : SPc V dom} (hlen : pc.rvbls.length = pc.spec.access.length) :
    pc.wpairs.map Prod.fst = pc.wvbls := by
  rw [SPc.wpairs, SPc.wvbls, List.map_filterMap]
  apply List.filterMap_congr
  intro r hr
  have h := wmap_lt hr
  have h' : r < pc.rvbls.length := by omega
  simp [List.getElem?_eq_getElem h, List.getElem?_eq_getElem h']

theorem wpairs_length {pc : SPc V dom} (hlen : pc.rvbls.length = pc.spec.access.length) :
    pc.wpairs.length = pc.spec.wmap.length := by
  have hall : ∀ l : List ℕ, (∀ r ∈ l, r < pc.spec.access.length) →
      (l.filterMap fun r => (pc.rvbls[r]?).bind fun v => (pc.spec.access[r]?).map fun a => (v, a)).length =
        l.length := by
    intro l
    induction l with
    | nil => simp
    | cons a l ih =>
      intro hl
      have ha := hl a (by simp)
      have ha' : a < pc.rvbls.length := by omega
      rw [List.filterMap_cons, List.getElem?_eq_getElem ha', List.getElem?_eq_getElem ha]
      simp [ih fun r hr => hl r (by simp [hr])]
  exact hall _ fun r hr => wmap_lt hr

theorem mem_smoothSt {v : V} {P : Finset (VSt V dom)} {s : VSt V dom} :
    s ∈ smoothSt v P ↔ ∃ a, Function.update s v a ∈ P := by simp [smoothSt]

/-! ### One assignment -/

/-- The written variables have the values `w`, or any value. -/
def WIs (ps : List (V × Access)) (w : List ℕ) (s : VSt V dom) : Prop :=
  ∀ (j : ℕ) (v : V) (acc : Access) (a : ℕ), ps[j]? = some (v, acc) → w[j]? = some a →
    a = acc.domsz ∨ (s v).val = a

/-- The values come from the state `t`, or are the value after the last of the domain. -/
def From (ps : List (V × Access)) (t : VSt V dom) (w : List ℕ) : Prop :=
  w.length = ps.length ∧ ∀ (j : ℕ) (v : V) (acc : Access) (a : ℕ), ps[j]? = some (v, acc) → w[j]? = some a →
    a = (t v).val ∨ (a = acc.domsz ∧ acc.wdomsz = acc.domsz + 1)

/-- The states agree on the written variables. -/
def SameW (ps : List (V × Access)) (s t : VSt V dom) : Prop := ∀ e ∈ ps, s e.1 = t e.1

theorem WIs.same {ps : List (V × Access)} {w : List ℕ} {s t : VSt V dom} (h : WIs ps w s)
    (hs : SameW ps s t) : WIs ps w t := by
  intro j v acc a h1 h2
  rw [← hs (v, acc) (List.mem_of_getElem? h1)]
  exact h j v acc a h1 h2

theorem From.is {ps : List (V × Access)} {t : VSt V dom} {w : List ℕ} (h : From ps t w) : WIs ps w t := by
  intro j v acc a h1 h2
  rcases h.2 j v acc a h1 h2 with h | h
  · exact .inr h.symm
  · exact .inl h.1

structure KeepInv (ps : List (V × Access)) (img : Finset (VSt V dom)) (t : VSt V dom)
    (st : Finset (VSt V dom) × List ℕ) : Prop where
  set : ∀ s, s ∈ st.1 ↔ WIs ps st.2 s
  sub : ∀ s ∈ st.1, ∃ u ∈ img, SameW ps u s
  vals : From ps t st.2

theorem aliasOk_of_nodup {pc : SPc V dom} (h : pc.rvbls.Nodup) : AliasOk pc :=
  fun _ _ _ _ h1 h2 hne _ => absurd (nodup_get h h1 h2) hne

theorem keep_step {ps : List (V × Access)} (hnd : ∀ (i j : ℕ) (v : V) (a a' : Access), ps[i]? = some (v, a) →
      ps[j]? = some (v, a') → i ≠ j → a'.wdomsz ≠ a'.domsz + 1) {img : Finset (VSt V dom)}
    {t : VSt V dom} {st : Finset (VSt V dom) × List ℕ} (h : KeepInv ps img t st)
    {e : (V × Access) × ℕ} (he : ps[e.2]? = some e.1) :
    KeepInv ps img t (keepStep img st e) := by
  obtain ⟨⟨v, acc⟩, j⟩ := e
  unfold keepStep
  simp only at he ⊢
  by_cases hw : acc.wdomsz = acc.domsz + 1
  · rw [if_pos hw]
    by_cases hs : smoothSt v st.1 ⊆ img
    · rw [if_pos hs]
      have hj : j < st.2.length := by
        rw [h.vals.1]; exact (List.getElem?_eq_some_iff.1 he).1
      have hne : ∀ (i : ℕ) (v' : V) (acc' : Access), ps[i]? = some (v', acc') → i ≠ j → v' ≠ v := by
        rintro i v' acc' hi hij rfl
        exact hnd i j _ _ _ hi he hij hw
      refine ⟨fun s => ?_, fun s hss => ⟨s, hs hss, fun _ _ => rfl⟩, ?_, ?_⟩
      · rw [mem_smoothSt]
        constructor
        · rintro ⟨a, ha⟩ i v' acc' x h1 h2
          rw [h.set] at ha
          by_cases hij : i = j
          · subst hij
            rw [he] at h1; cases h1
            simp only [List.getElem?_set_self hj] at h2
            cases h2
            exact .inl rfl
          · simp only [List.getElem?_set_ne (Ne.symm hij)] at h2
            have := ha i v' acc' x h1 h2
            rwa [Function.update_of_ne (hne i v' acc' h1 hij)] at this
        · intro hs'
          refine ⟨t v, ?_⟩
          rw [h.set]
          intro i v' acc' x h1 h2
          by_cases hij : i = j
          · subst hij
            rw [he] at h1; cases h1
            rw [Function.update_self]
            exact h.vals.is i v acc x he h2
          · rw [Function.update_of_ne (hne i v' acc' h1 hij)]
            exact hs' i v' acc' x h1 (by simp only [List.getElem?_set_ne (Ne.symm hij)]; exact h2)
      · simp [h.vals.1]
      · intro i v' acc' x h1 h2
        by_cases hij : i = j
        · subst hij
          rw [he] at h1; cases h1
          simp only [List.getElem?_set_self hj] at h2
          cases h2
          exact .inr ⟨rfl, hw⟩
        · simp only [List.getElem?_set_ne (Ne.symm hij)] at h2
          exact h.vals.2 i v' acc' x h1 h2
    · rw [if_neg hs]; exact h
  · rw [if_neg hw]; exact h

theorem keep_fold {ps : List (V × Access)} (hnd : ∀ (i j : ℕ) (v : V) (a a' : Access), ps[i]? = some (v, a) →
      ps[j]? = some (v, a') → i ≠ j → a'.wdomsz ≠ a'.domsz + 1) {img : Finset (VSt V dom)}
    {t : VSt V dom} :
    ∀ (l : List ((V × Access) × ℕ)) (st : Finset (VSt V dom) × List ℕ), KeepInv ps img t st →
      (∀ e ∈ l, ps[e.2]? = some e.1) → KeepInv ps img t (l.foldl (keepStep img) st) := by
  intro l
  induction l with
  | nil => intro st h _; exact h
  | cons e l ih =>
    intro st h hl
    exact ih _ (keep_step hnd h (hl e (by simp))) fun e' he' => hl e' (by simp [he'])

theorem keep_start {ps : List (V × Access)} {img : Finset (VSt V dom)} {t : VSt V dom} (ht : t ∈ img)
    (hd : ∀ e ∈ ps, dom e.1 = e.2.domsz) :
    KeepInv ps img t (cylinder (ps.map Prod.fst) ((ps.map Prod.fst).map fun v => (t v).val),
      (ps.map Prod.fst).map fun v => (t v).val) := by
  have hget : ∀ (j : ℕ) (v : V) (acc : Access) (a : ℕ), ps[j]? = some (v, acc) →
      ((ps.map Prod.fst).map fun v => (t v).val)[j]? = some a → a = (t v).val := by
    intro j v acc a h1 h2
    rw [List.getElem?_map, List.getElem?_map, h1] at h2
    simpa using h2.symm
  have hset : ∀ s, s ∈ cylinder (ps.map Prod.fst) ((ps.map Prod.fst).map fun v => (t v).val) ↔
      ∀ e ∈ ps, s e.1 = t e.1 := by
    intro s
    have hz : (ps.map Prod.fst).zip ((ps.map Prod.fst).map fun v => (t v).val) =
        ps.map fun e => (e.1, (t e.1).val) := by
      rw [List.map_map, List.zip_map']
      rfl
    simp only [cylinder, Finset.mem_filter, Finset.mem_univ, true_and, hz, List.mem_map,
      forall_exists_index, and_imp, forall_apply_eq_imp_iff₂, Fin.ext_iff]
  refine ⟨fun s => ?_, fun s hs => ⟨t, ht, fun e he => ((hset s).1 hs e he).symm⟩, by simp, ?_⟩
  · rw [hset]
    constructor
    · intro hs j v acc a h1 h2
      right
      rw [hs (v, acc) (List.mem_of_getElem? h1), hget j v acc a h1 h2]
    · intro hs e he
      obtain ⟨j, hj⟩ := List.mem_iff_getElem?.1 he
      have h2 : ((ps.map Prod.fst).map fun v => (t v).val)[j]? = some (t e.1).val := by
        rw [List.getElem?_map, List.getElem?_map, hj]; rfl
      rcases hs j e.1 e.2 _ hj h2 with h | h
      · have := (t e.1).isLt
        have := hd e he
        omega
      · exact Fin.ext h
  · intro j v acc a h1 h2
    exact .inl (hget j v acc a h1 h2)

/-- The loop over the images. -/
theorem img_loop {pk : Picker V dom} (hpk : Picker.Ok pk) {pc : SPc V dom} (hok : PcOk pc)
    (hnd : AliasOk pc) (pre : List ℕ) :
    ∀ (k : ℕ) (img : Finset (VSt V dom)) (acc : List (List ℕ)), img.card < k →
      ∃ l : List (List ℕ), imgLoop pk pc pre k img acc = some (acc ++ l.map (pre ++ ·)) ∧ l.Nodup ∧
        (∀ w ∈ l, ∃ t ∈ img, From pc.wpairs t w) ∧
        ∀ t, (∃ u ∈ img, SameW pc.wpairs u t) ↔ ∃ w ∈ l, WIs pc.wpairs w t := by
  have hwnd : ∀ (i j : ℕ) (v : V) (a a' : Access), pc.wpairs[i]? = some (v, a) →
      pc.wpairs[j]? = some (v, a') → i ≠ j → a'.wdomsz ≠ a'.domsz + 1 := by
    intro i j v a a' h1 h2 hne
    obtain ⟨r, e1, e2, -⟩ := (wpairs_get hok.len).1 h1
    obtain ⟨r', e3, e4, e5⟩ := (wpairs_get hok.len).1 h2
    refine (hnd r' r v a' e4 e2 ?_ e5).2
    rintro rfl
    exact hne (nodup_get (List.nodup_range.filter _ : pc.spec.wmap.Nodup) e1 e3)
  have hd : ∀ e ∈ pc.wpairs, dom e.1 = e.2.domsz := by
    intro e he
    obtain ⟨j, hj⟩ := List.mem_iff_getElem?.1 he
    obtain ⟨r, _, h2, h3⟩ := (wpairs_get hok.len).1 hj
    exact hok.doms r _ _ h2 h3
  intro k
  induction k with
  | zero => intro img acc h; omega
  | succ k ih =>
    intro img acc hk
    unfold imgLoop
    by_cases he : img = ∅
    · rw [if_pos he]
      subst he
      exact ⟨[], by simp, by simp, by simp, by simp⟩
    · rw [if_neg he]
      obtain ⟨t, ht, hti⟩ := hpk.2 img he
      rw [ht]
      simp only
      rw [← wpairs_fst hok.len]
      have hinv := keep_fold hwnd pc.wpairs.zipIdx _ (keep_start hti hd)
        (fun e he => List.mk_mem_zipIdx_iff_getElem?.1 he)
      set st := pc.wpairs.zipIdx.foldl (keepStep img) (cylinder (pc.wpairs.map Prod.fst)
        ((pc.wpairs.map Prod.fst).map fun v => (t v).val), (pc.wpairs.map Prod.fst).map fun v => (t v).val)
      have hts : t ∈ st.1 := (hinv.set t).2 hinv.vals.is
      have hcard : (img \ st.1).card < k := by
        have : (img \ st.1).card < img.card := Finset.card_lt_card
          ⟨Finset.sdiff_subset, fun h => (Finset.mem_sdiff.1 (h hti)).2 hts⟩
        omega
      obtain ⟨l, h1, h2, h3, h4⟩ := ih (img \ st.1) (acc ++ [pre ++ st.2]) hcard
      refine ⟨st.2 :: l, ?_, ?_, ?_, ?_⟩
      · rw [h1]; simp
      · rw [List.nodup_cons]
        refine ⟨fun hm => ?_, h2⟩
        obtain ⟨t', ht', hf⟩ := h3 _ hm
        exact (Finset.mem_sdiff.1 ht').2 ((hinv.set t').2 hf.is)
      · intro w hw
        rcases List.mem_cons.1 hw with rfl | hw
        · exact ⟨t, hti, hinv.vals⟩
        · obtain ⟨t', ht', hf⟩ := h3 w hw
          exact ⟨t', (Finset.mem_sdiff.1 ht').1, hf⟩
      · intro u
        constructor
        · rintro ⟨x, hx, hxu⟩
          by_cases hxs : x ∈ st.1
          · exact ⟨st.2, by simp, ((hinv.set x).1 hxs).same hxu⟩
          · obtain ⟨w, hw, hwu⟩ := (h4 u).1 ⟨x, Finset.mem_sdiff.2 ⟨hx, hxs⟩, hxu⟩
            exact ⟨w, by simp [hw], hwu⟩
        · rintro ⟨w, hw, hwu⟩
          rcases List.mem_cons.1 hw with rfl | hw
          · exact hinv.sub u ((hinv.set u).2 hwu)
          · obtain ⟨x, hx, hxu⟩ := (h4 u).2 ⟨w, hw, hwu⟩
            exact ⟨x, (Finset.mem_sdiff.1 hx).1, hxu⟩

/-! ### The guard -/

theorem smooth_fold {l : List (V × Access)} {s : VSt V dom} :
    ∀ (P : Finset (VSt V dom)) (Q : V → Prop), (∀ u, u ∈ P ↔ ∀ v, Q v → u v = s v) →
      ∀ u, u ∈ l.foldl (fun P e => if e.2.syntReadCk then P else smoothSt e.1 P) P ↔
        ∀ v, Q v → (∀ acc, (v, acc) ∈ l → acc.syntReadCk = true) → u v = s v := by
  induction l with
  | nil => intro P Q h u; simp [h u]
  | cons e l ih =>
    obtain ⟨x, a⟩ := e
    intro P Q h u
    rw [List.foldl_cons]
    by_cases ha : a.syntReadCk = true
    · simp only [ha, if_true]
      rw [ih P Q h u]
      refine forall_congr' fun v => forall_congr' fun _ => ?_
      refine imp_congr_left (forall_congr' fun acc => ?_)
      constructor
      · intro hh hm
        rcases List.mem_cons.1 hm with hm | hm
        · cases hm; exact ha
        · exact hh hm
      · intro hh hm
        exact hh (by simp [hm])
    · rw [if_neg ha]
      rw [ih (smoothSt x P) (fun v => Q v ∧ v ≠ x) ?_ u]
      · refine forall_congr' fun v => ?_
        constructor
        · intro hh hq hr
          refine hh ⟨hq, ?_⟩ fun acc hm => hr acc (by simp [hm])
          rintro rfl
          exact ha (hr a (by simp))
        · rintro hh ⟨hq, hne⟩ hr
          refine hh hq fun acc hm => ?_
          rcases List.mem_cons.1 hm with hm | hm
          · cases hm; exact absurd rfl hne
          · exact hr acc hm
      · intro u
        rw [mem_smoothSt]
        constructor
        · rintro ⟨b, hb⟩ v ⟨hq, hne⟩
          have := (h _).1 hb v hq
          rwa [Function.update_of_ne hne] at this
        · intro hh
          refine ⟨s x, (h _).2 fun v hq => ?_⟩
          by_cases hv : v = x
          · subst hv; rw [Function.update_self]
          · rw [Function.update_of_ne hv]; exact hh v ⟨hq, hv⟩

theorem mem_preSet {pc : SPc V dom} (hlen : pc.rvbls.length = pc.spec.access.length) (hnd : AliasOk pc)
    {s u : VSt V dom} : u ∈ preSet pc s ↔ SameRead pc u s := by
  unfold preSet
  rw [smooth_fold (s := s) _ (fun v => v ∈ pc.rvbls) ?_ u]
  · constructor
    · intro h r v acc h1 h2 h3
      refine h v (List.mem_of_getElem? h1) fun acc' hm => ?_
      obtain ⟨r', hr'⟩ := List.mem_iff_getElem?.1 hm
      obtain ⟨e1, e2⟩ := List.getElem?_zip_eq_some.1 hr'
      by_cases hrr : r' = r
      · subst hrr
        rw [h2] at e2; cases e2; exact h3
      · exact (hnd r' r v acc' e1 h1 hrr e2).1
    · intro h v hv hacc
      obtain ⟨r, hr⟩ := List.mem_iff_getElem?.1 hv
      have hl := (List.getElem?_eq_some_iff.1 hr).1
      have hl' : r < pc.spec.access.length := by omega
      have h2 := List.getElem?_eq_getElem hl'
      exact h r v _ hr h2 (hacc _ (List.mem_iff_getElem?.2 ⟨r, List.getElem?_zip_eq_some.2 ⟨hr, h2⟩⟩))
  · intro u
    have hz : pc.rvbls.zip (pc.rvbls.map fun v => (s v).val) = pc.rvbls.map fun v => (v, (s v).val) := by
      conv_lhs => rw [← List.map_id pc.rvbls]
      rw [List.map_map, List.zip_map']
      rfl
    simp only [cylinder, Finset.mem_filter, Finset.mem_univ, true_and, hz, List.mem_map,
      forall_exists_index, and_imp, forall_apply_eq_imp_iff₂, Fin.ext_iff]

theorem imgSet_eq {pc : SPc V dom} (hok : PcOk pc) {xn : Finset (VSt V dom × VSt V dom)}
    {P : Finset (VSt V dom)} : imgSet pc xn P = (xn.filter fun e => e.1 ∈ P).image Prod.snd := by
  unfold imgSet
  have : ∀ (l : List (V × Access)), (∀ e ∈ l, e.2.randomWriteCk = false) → ∀ Q : Finset (VSt V dom),
      l.foldl (fun P e => if e.2.randomWriteCk then (smoothSt e.1 P).filter fun s => (s e.1).val = 0 else P) Q =
        Q := by
    intro l
    induction l with
    | nil => intro _ Q; rfl
    | cons e l ih =>
      intro h Q
      rw [List.foldl_cons, h e (by simp)]
      exact ih (fun e' he' => h e' (by simp [he'])) Q
  exact this _ (fun e he => hok.norand _ (List.of_mem_zip he).2) _

theorem preVals_get {pc : SPc V dom} {s : VSt V dom} {r g : ℕ} :
    (preVals pc s)[r]? = some g ↔ ∃ v acc, pc.rvbls[r]? = some v ∧ pc.spec.access[r]? = some acc ∧
      g = if acc.syntReadCk then (s v).val else 0 := by
  rw [preVals, List.getElem?_map, Option.map_eq_some_iff]
  constructor
  · rintro ⟨⟨v, acc⟩, h1, h2⟩
    obtain ⟨e1, e2⟩ := List.getElem?_zip_eq_some.1 h1
    exact ⟨v, acc, e1, e2, h2.symm⟩
  · rintro ⟨v, acc, h1, h2, h3⟩
    exact ⟨(v, acc), List.getElem?_zip_eq_some.2 ⟨h1, h2⟩, h3.symm⟩

theorem preVals_length {pc : SPc V dom} (hlen : pc.rvbls.length = pc.spec.access.length) {s : VSt V dom} :
    (preVals pc s).length = pc.spec.access.length := by
  simp [preVals, hlen]

/-- The values of an action found for a transition. -/
structure Found (pc : SPc V dom) (s t : VSt V dom) (vals : List ℕ) : Prop where
  pre : vals.take pc.spec.access.length = preVals pc s
  img : From pc.wpairs t (vals.drop pc.spec.access.length)

/-- The loop over the states. -/
theorem pre_loop {pk : Picker V dom} (hpk : Picker.Ok pk) {pc : SPc V dom} (hok : PcOk pc)
    (hnd : AliasOk pc) :
    ∀ (k : ℕ) (xn : Finset (VSt V dom × VSt V dom)) (acc : List (List ℕ)), xn.card < k →
      ∃ l : List (List ℕ), preLoop pk pc k xn acc = some (acc ++ l) ∧ l.Nodup ∧
        (∀ w ∈ l, ∃ s t, (s, t) ∈ xn ∧ Found pc s t w) ∧
        ∀ s t, (∃ s' t', (s', t') ∈ xn ∧ SameRead pc s s' ∧ SameW pc.wpairs t' t) ↔
          ∃ w ∈ l, w.take pc.spec.access.length = preVals pc s ∧
            WIs pc.wpairs (w.drop pc.spec.access.length) t := by
  have hpv : ∀ s s' : VSt V dom, preVals pc s = preVals pc s' ↔ SameRead pc s s' := by
    intro s s'
    constructor
    · intro h r v acc h1 h2 h3
      have e1 := (preVals_get (s := s)).2 ⟨v, acc, h1, h2, rfl⟩
      have e2 := (preVals_get (s := s')).2 ⟨v, acc, h1, h2, rfl⟩
      rw [h, e2, h3] at e1
      simp only [if_true, Option.some.injEq] at e1
      exact Fin.ext e1.symm
    · intro h
      apply List.ext_getElem?
      intro r
      ext g
      rw [preVals_get, preVals_get]
      constructor
      · rintro ⟨v, acc, h1, h2, h3⟩
        refine ⟨v, acc, h1, h2, ?_⟩
        by_cases hr : acc.syntReadCk = true
        · rw [if_pos hr, h r v acc h1 h2 hr] at h3; rw [if_pos hr]; exact h3
        · rw [if_neg hr] at h3 ⊢; exact h3
      · rintro ⟨v, acc, h1, h2, h3⟩
        refine ⟨v, acc, h1, h2, ?_⟩
        by_cases hr : acc.syntReadCk = true
        · rw [if_pos hr, ← h r v acc h1 h2 hr] at h3; rw [if_pos hr]; exact h3
        · rw [if_neg hr] at h3 ⊢; exact h3
  intro k
  induction k with
  | zero => intro xn acc h; omega
  | succ k ih =>
    intro xn acc hk
    unfold preLoop
    by_cases he : xn = ∅
    · rw [if_pos he]
      subst he
      exact ⟨[], by simp, by simp, by simp, by simp⟩
    · rw [if_neg he]
      obtain ⟨s, t, hs, hst⟩ := hpk.1 xn he
      rw [hs]
      simp only
      obtain ⟨l, h1, h2, h3, h4⟩ := img_loop hpk hok hnd (preVals pc s)
        ((imgSet pc xn (preSet pc s)).card + 1) (imgSet pc xn (preSet pc s)) acc (by omega)
      rw [h1]
      simp only
      have hmem : ∀ u, u ∈ preSet pc s ↔ preVals pc u = preVals pc s := fun u => by
        rw [mem_preSet hok.len hnd, hpv]
      have hin : s ∈ preSet pc s := (hmem s).2 rfl
      have hcard : (xn.filter fun e => e.1 ∉ preSet pc s).card < k := by
        have : (xn.filter fun e => e.1 ∉ preSet pc s).card < xn.card := Finset.card_lt_card
          ⟨Finset.filter_subset _ _, fun h => (Finset.mem_filter.1 (h hst)).2 hin⟩
        omega
      obtain ⟨l', g1, g2, g3, g4⟩ := ih _ (acc ++ l.map (preVals pc s ++ ·)) hcard
      have hpl := preVals_length hok.len (s := s)
      have htk : ∀ w : List ℕ, (preVals pc s ++ w).take pc.spec.access.length = preVals pc s := fun w => by
        rw [← hpl, List.take_left']; rfl
      have hdr : ∀ w : List ℕ, (preVals pc s ++ w).drop pc.spec.access.length = w := fun w => by
        rw [← hpl, List.drop_left']; rfl
      have himg : ∀ u, u ∈ imgSet pc xn (preSet pc s) ↔ ∃ s', (s', u) ∈ xn ∧ preVals pc s' = preVals pc s := by
        intro u
        rw [imgSet_eq hok]
        simp [hmem]
      refine ⟨l.map (preVals pc s ++ ·) ++ l', by rw [g1, List.append_assoc], ?_, ?_, ?_⟩
      · rw [List.nodup_append]
        refine ⟨h2.map fun a b h => List.append_cancel_left h, g2, ?_⟩
        rintro a ha b hb rfl
        obtain ⟨w, hw, rfl⟩ := List.mem_map.1 ha
        obtain ⟨s', t', hx, hf⟩ := g3 _ hb
        have := hf.pre
        rw [htk] at this
        exact (Finset.mem_filter.1 hx).2 ((hmem s').2 this.symm)
      · intro w hw
        rcases List.mem_append.1 hw with hw | hw
        · obtain ⟨w, hwl, rfl⟩ := List.mem_map.1 hw
          obtain ⟨t', ht', hf⟩ := h3 w hwl
          obtain ⟨s', hs', hp⟩ := (himg t').1 ht'
          exact ⟨s', t', hs', by rw [htk, hp], by rw [hdr]; exact hf⟩
        · obtain ⟨s', t', hx, hf⟩ := g3 w hw
          exact ⟨s', t', (Finset.mem_filter.1 hx).1, hf⟩
      · intro a b
        constructor
        · rintro ⟨s', t', hx, hr, hw⟩
          by_cases hc : s' ∈ preSet pc s
          · obtain ⟨w, hwl, hwi⟩ := (h4 b).1 ⟨t', (himg t').2 ⟨s', hx, (hmem s').1 hc⟩, hw⟩
            refine ⟨preVals pc s ++ w, by simp [hwl], ?_, by rw [hdr]; exact hwi⟩
            rw [htk, ← (hmem s').1 hc]
            exact ((hpv a s').2 hr).symm
          · obtain ⟨w, hwl, hwi⟩ := (g4 a b).1 ⟨s', t', Finset.mem_filter.2 ⟨hx, hc⟩, hr, hw⟩
            exact ⟨w, by simp [hwl], hwi⟩
        · rintro ⟨w, hw, hp, hi⟩
          rcases List.mem_append.1 hw with hw | hw
          · obtain ⟨w, hwl, rfl⟩ := List.mem_map.1 hw
            rw [hdr] at hi
            rw [htk] at hp
            obtain ⟨u, hu, huw⟩ := (h4 b).2 ⟨w, hwl, hi⟩
            obtain ⟨s', hs', hp'⟩ := (himg u).1 hu
            exact ⟨s', u, hs', (hpv a s').1 (by rw [hp', hp]), huw⟩
          · obtain ⟨s', t', hx, hr, hww⟩ := (g4 a b).2 ⟨w, hw, hp, hi⟩
            exact ⟨s', t', (Finset.mem_filter.1 hx).1, hr, hww⟩

/-! ### Values of actions -/

theorem forall₂_get? {α β : Type} {R : α → β → Prop} {l : List α} {m : List β} (hl : l.length = m.length)
    (h : ∀ (i : ℕ) (a : α) (b : β), l[i]? = some a → m[i]? = some b → R a b) : List.Forall₂ R l m := by
  refine List.forall₂_iff_get.2 ⟨hl, fun i h1 h2 => h i _ _ ?_ ?_⟩
  · exact List.getElem?_eq_getElem h1
  · exact List.getElem?_eq_getElem h2

theorem rdoms_get {pc : PcSymm} {r d : ℕ} :
    pc.rdoms[r]? = some d ↔ ∃ acc, pc.access[r]? = some acc ∧ acc.rdomsz = d := by
  rw [PcSymm.rdoms, List.getElem?_map, Option.map_eq_some_iff]

theorem wdoms_get {pc : PcSymm} {j d : ℕ} :
    pc.wdoms[j]? = some d ↔ ∃ r acc, pc.wmap[j]? = some r ∧ pc.access[r]? = some acc ∧ acc.wdomsz = d := by
  rw [PcSymm.wdoms, List.getElem?_map, Option.map_eq_some_iff]
  constructor
  · rintro ⟨r, h1, h2⟩
    have := wmap_lt (List.mem_of_getElem? h1)
    rw [List.getElem?_eq_getElem this] at h2
    exact ⟨r, _, h1, List.getElem?_eq_getElem this, h2⟩
  · rintro ⟨r, acc, h1, h2, h3⟩
    exact ⟨r, h1, by rw [h2]; exact h3⟩

theorem wdomsz_norand {acc : Access} (hw : acc.writeCk = true) (hr : acc.randomWriteCk = false) :
    acc.wdomsz = acc.domsz ∨ acc.wdomsz = acc.domsz + 1 := by
  unfold Access.wdomsz
  rw [hw, hr]
  simp only [Bool.not_true, Bool.false_eq_true, if_false]
  split_ifs <;> simp

theorem found_doms {pc : SPc V dom} (hok : PcOk pc) {s t : VSt V dom} {w : List ℕ} (h : Found pc s t w) :
    List.Forall₂ (· < ·) w pc.spec.doms := by
  rw [← List.take_append_drop pc.spec.access.length w, PcSymm.doms]
  refine List.rel_append ?_ ?_
  · rw [h.pre]
    refine forall₂_get? (by rw [preVals_length hok.len, rdoms_length]) fun i a b h1 h2 => ?_
    obtain ⟨v, acc, e1, e2, rfl⟩ := preVals_get.1 h1
    obtain ⟨acc', e3, rfl⟩ := rdoms_get.1 h2
    rw [e2] at e3; cases e3
    unfold Access.rdomsz
    by_cases hr : acc.syntReadCk = true
    · rw [if_pos hr, hr]
      simp only [Bool.not_true, Bool.false_eq_true, if_false]
      rw [← hok.doms i v acc e1 e2]
      exact (s v).isLt
    · simp [hr]
  · refine forall₂_get? (by rw [h.img.1, wdoms_length, wpairs_length hok.len]) fun j a b h1 h2 => ?_
    obtain ⟨r, acc, e1, e2, rfl⟩ := wdoms_get.1 h2
    obtain ⟨acc', e3, hwr⟩ := mem_wmap_iff.1 (List.mem_of_getElem? e1)
    rw [e2] at e3; cases e3
    have hl : r < pc.rvbls.length := by rw [hok.len]; exact (List.getElem?_eq_some_iff.1 e2).1
    have e4 := List.getElem?_eq_getElem hl
    rcases h.img.2 j _ acc a ((wpairs_get hok.len).2 ⟨r, e1, e4, e2⟩) h1 with rfl | ⟨rfl, hk⟩
    · have hlt := (t pc.rvbls[r]).isLt
      have hd := hok.doms r _ acc e4 e2
      rcases wdomsz_norand hwr (hok.norand _ (List.mem_of_getElem? e2)) with hh | hh <;> simp only [hh] <;> omega
    · omega

theorem guard_iff {pc : SPc V dom} (hok : PcOk pc) {w : List ℕ} (hw : List.Forall₂ (· < ·) w pc.spec.doms)
    {s : VSt V dom} : w.take pc.spec.access.length = preVals pc s ↔ GuardIs pc w s := by
  have hlen : pc.spec.access.length ≤ w.length := by
    rw [hw.length_eq, PcSymm.doms, List.length_append, rdoms_length]; omega
  constructor
  · intro h r v acc g h1 h2 h3 h4
    have h5 : (preVals pc s)[r]? = some g := by
      rw [← h, List.getElem?_take_of_lt (List.getElem?_eq_some_iff.1 h2).1]; exact h3
    obtain ⟨v', acc', e1, e2, rfl⟩ := preVals_get.1 h5
    rw [h1] at e1; cases e1
    rw [h2] at e2; cases e2
    rw [if_pos h4]
  · intro h
    apply List.ext_getElem
    · rw [preVals_length hok.len, List.length_take]; omega
    intro r h1 h2
    have h1' : r < pc.spec.access.length := by rw [List.length_take] at h1; omega
    obtain ⟨v, acc, g, e1, e2, e3⟩ := rfacts hok hw h1'
    have e4 : (preVals pc s)[r]? = some (if acc.syntReadCk then (s v).val else 0) :=
      preVals_get.2 ⟨v, acc, e1, e2, rfl⟩
    have e5 : (w.take pc.spec.access.length)[r]? = some g := by rw [List.getElem?_take_of_lt h1', e3]
    rw [List.getElem?_eq_getElem h1] at e5
    rw [List.getElem?_eq_getElem h2] at e4
    rw [Option.some.injEq] at e4 e5
    rw [e4, e5]
    by_cases hr : acc.syntReadCk = true
    · rw [if_pos hr]; exact (h r v acc g e1 e2 e3 hr).symm
    · rw [if_neg hr]
      have hg : g < acc.rdomsz := by
        obtain ⟨hl, hh⟩ := List.forall₂_iff_get.1 hw
        have hr1 := (List.getElem?_eq_some_iff.1 e3).1
        have := hh r hr1 (by omega)
        simp only [List.get_eq_getElem] at this
        have h6 : pc.spec.doms[r]? = some acc.rdomsz := by
          rw [PcSymm.doms, List.getElem?_append_left (by rw [rdoms_length]; exact h1')]
          exact rdoms_get.2 ⟨acc, e2, rfl⟩
        rw [List.getElem?_eq_getElem (by omega), Option.some.injEq] at h6
        rw [List.getElem?_eq_getElem hr1, Option.some.injEq] at e3
        rw [← h6, ← e3]; exact this
      unfold Access.rdomsz at hg
      simp [hr] at hg
      exact hg

theorem assign_iff {pc : SPc V dom} (hok : PcOk pc) {w : List ℕ} {t : VSt V dom} :
    WIs pc.wpairs (w.drop pc.spec.access.length) t ↔ AssignIs pc w t := by
  constructor
  · intro h j r v acc a h1 h2 h3 h4
    exact h j v acc a ((wpairs_get hok.len).2 ⟨r, h1, h2, h3⟩) (by rw [List.getElem?_drop]; exact h4)
  · intro h j v acc a h1 h2
    obtain ⟨r, e1, e2, e3⟩ := (wpairs_get hok.len).1 h1
    exact h j r v acc a e1 e2 e3 (by rw [List.getElem?_drop] at h2; exact h2)

theorem sameW_iff {pc : SPc V dom} (hok : PcOk pc) {s t : VSt V dom} :
    SameW pc.wpairs s t ↔ ∀ v ∈ pc.wvbls, s v = t v := by
  rw [← wpairs_fst hok.len]
  simp [SameW]

/-- Two actions without values for keeping that describe one transition are equal. -/
theorem vals_unique {pc : SPc V dom} (hok : PcOk pc) (hk : NoKeep pc.spec) {w w' : List ℕ}
    (hw : List.Forall₂ (· < ·) w pc.spec.doms) (hw' : List.Forall₂ (· < ·) w' pc.spec.doms) {s t : VSt V dom}
    (hg : GuardIs pc w s) (ha : AssignIs pc w t) (hg' : GuardIs pc w' s) (ha' : AssignIs pc w' t) : w = w' := by
  rw [← List.take_append_drop pc.spec.access.length w, ← List.take_append_drop pc.spec.access.length w',
    (guard_iff hok hw).2 hg, (guard_iff hok hw').2 hg']
  congr 1
  have hl : w.length = w'.length := by rw [hw.length_eq, hw'.length_eq]
  have hdl : pc.spec.doms.length = pc.spec.access.length + pc.spec.wmap.length := by
    rw [PcSymm.doms, List.length_append, rdoms_length, wdoms_length]
  have hwl := hw.length_eq
  apply List.ext_getElem
  · simp [hl]
  intro j h1 h2
  rw [List.length_drop] at h1
  have hj : j < pc.spec.wmap.length := by omega
  have hr := List.getElem?_eq_getElem hj
  obtain ⟨v, acc, g, a, e1, e2, e3, e4, e5, e6⟩ := wfacts hok hw hr
  obtain ⟨v', acc', g', a', f1, f2, f3, f4, f5, f6⟩ := wfacts hok hw' hr
  rw [e1] at f1; cases f1
  rw [e2] at f2; cases f2
  have hsz : acc.wdomsz = acc.domsz := by
    have hm := List.mem_of_getElem? e2
    exact (wdomsz_norand e5 (hok.norand _ hm)).resolve_right (hk _ hm)
  have q1 := (ha j _ v acc a hr e1 e2 e4).resolve_left (by omega)
  have q2 := (ha' j _ v acc a' hr e1 e2 f4).resolve_left (by omega)
  rw [List.getElem_drop, List.getElem_drop]
  rw [List.getElem?_eq_getElem (by omega), Option.some.injEq] at e4 f4
  rw [e4, f4, ← q1, ← q2]

end Verif.Proofs
