import Verif.Model.Promela
import Mathlib.Tactic.Linarith
import Mathlib.Data.Finset.Prod
import Mathlib.Data.List.Nodup

/-!
Proofs about the writing of Promela models.
-/

set_option linter.unusedSectionVars false

namespace Verif.Proofs
open Verif.Spec Verif.Model

section
variable {σ : Type} [DecidableEq σ] {c : ℕ} {k : PmKind} {rd : σ → PmAcc → ℕ} {pick : Finset σ → Option σ}

/-- `state` gives a state of a nonempty set. -/
def PmPick (pick : Finset σ → Option σ) : Prop := ∀ S : Finset σ, S.Nonempty → ∃ s ∈ S, pick S = some s

theorem unrollImg_spec (hp : PmPick pick) : ∀ (fuel : ℕ) (S : Finset σ), S.card < fuel →
    ∃ ws, unrollImg k rd pick fuel S = some ws ∧ ws.Nodup ∧
      ∀ w, w ∈ ws ↔ ∃ t ∈ S, w = unrollAssigns k rd t := by
  intro fuel
  induction fuel with
  | zero => intro S h; omega
  | succ n ih =>
    intro S h
    by_cases hS : S = ∅
    · exact ⟨[], by simp [unrollImg, hS], List.nodup_nil, by simp [hS]⟩
    · obtain ⟨t, ht, hpk⟩ := hp S (Finset.nonempty_iff_ne_empty.mpr hS)
      have hlt : (S.filter fun t' => unrollAssigns k rd t' ≠ unrollAssigns k rd t).card < S.card := by
        apply Finset.card_lt_card
        refine Finset.filter_ssubset.mpr ⟨t, ht, by simp⟩
      obtain ⟨ws, hws, hnd, hmem⟩ := ih _ (lt_of_lt_of_le hlt (Nat.lt_succ_iff.mp h))
      refine ⟨unrollAssigns k rd t :: ws, ?_, ?_, ?_⟩
      · simp only [unrollImg, hS, if_false, hpk, hws, Option.map_some]
      · refine List.nodup_cons.mpr ⟨?_, hnd⟩
        intro hin
        obtain ⟨t', ht', he⟩ := (hmem _).mp hin
        exact (Finset.mem_filter.mp ht').2 he.symm
      · intro w
        rw [List.mem_cons, hmem]
        constructor
        · rintro (rfl | ⟨t', ht', rfl⟩)
          · exact ⟨t, ht, rfl⟩
          · exact ⟨t', (Finset.mem_filter.mp ht').1, rfl⟩
        · rintro ⟨t', ht', rfl⟩
          by_cases he : unrollAssigns k rd t' = unrollAssigns k rd t
          · exact Or.inl he
          · exact Or.inr ⟨t', Finset.mem_filter.mpr ⟨ht', he⟩, rfl⟩

theorem unrollPre_spec (hp : PmPick pick) : ∀ (fuel : ℕ) (X : Finset (σ × σ)), X.card < fuel →
    ∃ acts, unrollPre c k rd pick fuel X = some acts ∧ acts.Nodup ∧
      ∀ a, a ∈ acts ↔ ∃ e ∈ X, a = ⟨c, unrollGuards k rd e.1, unrollAssigns k rd e.2⟩ := by
  intro fuel
  induction fuel with
  | zero => intro X h; omega
  | succ n ih =>
    intro X h
    by_cases hX : X = ∅
    · exact ⟨[], by simp [unrollPre, hX], List.nodup_nil, by simp [hX]⟩
    · have hne : (X.image Prod.fst).Nonempty := (Finset.nonempty_iff_ne_empty.mpr hX).image _
      obtain ⟨s, hs, hpk⟩ := hp _ hne
      obtain ⟨e0, he0, rfl⟩ := Finset.mem_image.mp hs
      have hlt : (X.filter fun e => unrollGuards k rd e.1 ≠ unrollGuards k rd e0.1).card < X.card := by
        apply Finset.card_lt_card
        refine Finset.filter_ssubset.mpr ⟨e0, he0, by simp⟩
      obtain ⟨acts, hacts, hnd, hmem⟩ := ih _ (lt_of_lt_of_le hlt (Nat.lt_succ_iff.mp h))
      obtain ⟨ws, hws, hwnd, hwmem⟩ := unrollImg_spec (k := k) (rd := rd) hp _
        ((X.filter fun e => unrollGuards k rd e.1 = unrollGuards k rd e0.1).image Prod.snd) (Nat.lt_succ_self _)
      refine ⟨ws.map (fun w => ⟨c, unrollGuards k rd e0.1, w⟩) ++ acts, ?_, ?_, ?_⟩
      · simp only [unrollPre, hX, if_false, hpk, hws, hacts, Option.map_some]
      · refine List.nodup_append.mpr ⟨?_, hnd, ?_⟩
        · exact hwnd.map fun a b hab => by simpa using hab
        · intro a ha b hb hab
          subst hab
          obtain ⟨w, _, rfl⟩ := List.mem_map.mp ha
          obtain ⟨e, he, heq⟩ := (hmem _).mp hb
          have : unrollGuards k rd e0.1 = unrollGuards k rd e.1 := congrArg PmAct.guards heq
          exact (Finset.mem_filter.mp he).2 this.symm
      · intro a
        rw [List.mem_append, hmem, List.mem_map]
        constructor
        · rintro (⟨w, hw, rfl⟩ | ⟨e, he, rfl⟩)
          · obtain ⟨t, ht, rfl⟩ := (hwmem _).mp hw
            obtain ⟨e, he, rfl⟩ := Finset.mem_image.mp ht
            obtain ⟨he1, he2⟩ := Finset.mem_filter.mp he
            exact ⟨e, he1, by rw [he2]⟩
          · exact ⟨e, (Finset.mem_filter.mp he).1, rfl⟩
        · rintro ⟨e, he, rfl⟩
          by_cases hg : unrollGuards k rd e.1 = unrollGuards k rd e0.1
          · refine Or.inl ⟨_, (hwmem _).mpr ⟨e.2, Finset.mem_image.mpr ⟨e, Finset.mem_filter.mpr ⟨he, hg⟩, rfl⟩, rfl⟩, ?_⟩
            rw [hg]
          · exact Or.inr ⟨e, Finset.mem_filter.mpr ⟨he, hg⟩, rfl⟩

end

/-! ### References -/

theorem addUp_dvd (sz : ℕ) (m : ℤ) : ∀ (fuel add : ℕ), sz ∣ add → sz ∣ addUp sz m fuel add := by
  intro fuel
  induction fuel with
  | zero => intro add h; exact h
  | succ n ih =>
    intro add h
    unfold addUp
    split
    · exact ih _ ((Nat.dvd_add_right h).mpr (dvd_refl _))
    · exact h

theorem addUp_ge (sz : ℕ) (m : ℤ) : ∀ (fuel add : ℕ), add ≤ addUp sz m fuel add := by
  intro fuel
  induction fuel with
  | zero => intro add; exact le_refl _
  | succ n ih =>
    intro add
    unfold addUp
    split
    · exact le_trans (Nat.le_add_right _ _) (ih _)
    · exact le_refl _

theorem addUp_nonneg (sz : ℕ) (hsz : 0 < sz) (m : ℤ) : ∀ (fuel add : ℕ), -m ≤ fuel + add →
    0 ≤ m + addUp sz m fuel add := by
  intro fuel
  induction fuel with
  | zero => intro add h; simp only [addUp]; push_cast at h; omega
  | succ n ih =>
    intro add h
    unfold addUp
    split
    · apply ih; push_cast at h ⊢; omega
    · omega

/-- What holds of `mod_val` and `add_val` after the indices `l`. -/
structure RefInv (sz : ℕ) (l : List ℤ) (st : ℕ × ℕ) : Prop where
  dvd : sz ∣ st.2
  nonneg : ∀ m ∈ l, 0 ≤ m + st.2
  mod : st.1 = sz ∨ (st = (0, 0) ∧ ∀ m ∈ l, 0 ≤ m ∧ m < sz)

theorem refFold_inv (sz : ℕ) (hsz : 0 < sz) : ∀ (l l0 : List ℤ) (st : ℕ × ℕ), RefInv sz l0 st →
    RefInv sz (l0 ++ l) (l.foldl (pmRefRound sz) st) := by
  intro l
  induction l with
  | nil => intro l0 st h; simpa using h
  | cons m l ih =>
    intro l0 st h
    have : RefInv sz (l0 ++ [m]) (pmRefRound sz st m) := by
      obtain ⟨h1, h2, h3⟩ := h
      have hge := addUp_ge sz m m.natAbs st.2
      have hnn := addUp_nonneg sz hsz m m.natAbs st.2 (by omega)
      have hd := addUp_dvd sz m m.natAbs st.2 h1
      unfold pmRefRound
      by_cases hm : m < 0
      · have hm' : ¬ m ≥ (sz : ℤ) := by omega
        simp only [hm, hm', if_true, if_false]
        refine ⟨hd, ?_, Or.inl rfl⟩
        intro x hx
        rcases List.mem_append.mp hx with hx | hx
        · have := h2 x hx; simp only; omega
        · rw [List.mem_singleton.mp hx]; exact hnn
      · simp only [hm, if_false]
        have hnn' : ∀ x ∈ l0 ++ [m], 0 ≤ x + (st.2 : ℤ) := by
          intro x hx
          rcases List.mem_append.mp hx with hx | hx
          · exact h2 x hx
          · rw [List.mem_singleton.mp hx]; omega
        split
        · exact ⟨h1, hnn', Or.inl rfl⟩
        · rename_i hlt
          refine ⟨h1, hnn', ?_⟩
          rcases h3 with h3 | ⟨h3, h4⟩
          · exact Or.inl h3
          · refine Or.inr ⟨h3, ?_⟩
            intro x hx
            rcases List.mem_append.mp hx with hx | hx
            · exact h4 x hx
            · rw [List.mem_singleton.mp hx]; omega
    simpa using ih _ _ this

/-- A reference of process `j` is to the member at the index modulo the number of members. -/
theorem pmRef_value (size : ℕ → ℕ) (k : PmKind) (a : PmAcc) (hsz : 0 < size a.vbl) (j : ℕ) (hj : j < k.membs) :
    (pmRef size k a).value j = a.expr j % size a.vbl := by
  have inv := refFold_inv (size a.vbl) hsz ((List.range k.membs).map fun i : ℕ => a.expr i) [] (0, 0)
    ⟨dvd_zero _, by simp, Or.inr ⟨rfl, by simp⟩⟩
  rw [List.nil_append] at inv
  obtain ⟨h1, h2, h3⟩ := inv
  have hmem : a.expr j ∈ (List.range k.membs).map fun i : ℕ => a.expr i :=
    List.mem_map.mpr ⟨j, List.mem_range.mpr hj, rfl⟩
  unfold PmRef.value pmRef
  simp only
  generalize List.foldl (pmRefRound (size a.vbl)) (0, 0) _ = st at h1 h2 h3 ⊢
  obtain ⟨md, ad⟩ := st
  rcases h3 with h3 | ⟨h3, h4⟩
  · simp only at h3 h1 h2 ⊢
    subst h3
    rw [if_neg (by omega), Int.tmod_eq_emod_of_nonneg (h2 _ hmem)]
    obtain ⟨q, rfl⟩ := h1
    push_cast
    rw [Int.add_mul_emod_self_left]
  · cases h3
    obtain ⟨h5, h6⟩ := h4 _ hmem
    simp only [if_true]
    exact (Int.emod_eq_of_lt h5 h6).symm

theorem pmRef_loc (size : ℕ → ℕ) (k : PmKind) (a : PmAcc) (hsz : 0 < size a.vbl) (j : ℕ) (hj : j < k.membs) :
    (pmRef size k a).loc size j = some (a.expr j % size a.vbl).toNat := by
  have hv := pmRef_value size k a hsz j hj
  have hvb : (pmRef size k a).vbl = a.vbl := rfl
  unfold PmRef.loc
  rw [hv, hvb, if_pos]
  have : (0 : ℤ) < size a.vbl := by exact_mod_cast hsz
  exact ⟨Int.emod_nonneg _ this.ne', Int.emod_lt_of_pos _ this⟩

/-! ### Moves -/

/-- The member of an array that process `j` accesses. -/
def pmMemb (size : ℕ → ℕ) (j : ℕ) (a : PmAcc) : ℕ × ℕ := (a.vbl, (a.expr j % size a.vbl).toNat)

/-- Assignments to given members. -/
def pmPut : List ((ℕ × ℕ) × ℕ) → PmState → PmState
  | [], s => s
  | (p, v) :: l, s => pmPut l fun x m => if x = p.1 ∧ m = p.2 then v else s x m

theorem pmAssign_put (size : ℕ → ℕ) (k : PmKind) (j : ℕ) (hj : j < k.membs) :
    ∀ (l : List (PmAcc × ℕ)) (s : PmState), (∀ x ∈ l, 0 < size x.1.vbl) →
      pmAssign size j (l.map fun x => (pmRef size k x.1, x.2)) s =
        some (pmPut (l.map fun x => (pmMemb size j x.1, x.2)) s) := by
  intro l
  induction l with
  | nil => intro s _; rfl
  | cons x l ih =>
    intro s h
    have hl := pmRef_loc size k x.1 (h x List.mem_cons_self) j hj
    simp only [List.map_cons, pmAssign, hl, pmPut]
    exact ih _ fun y hy => h y (List.mem_cons_of_mem _ hy)

theorem pmPut_frame : ∀ (l : List ((ℕ × ℕ) × ℕ)) (s : PmState) (x m : ℕ), (x, m) ∉ l.map Prod.fst →
    pmPut l s x m = s x m := by
  intro l
  induction l with
  | nil => intro s x m _; rfl
  | cons e l ih =>
    intro s x m h
    obtain ⟨p, v⟩ := e
    simp only [List.map_cons, List.mem_cons, not_or] at h
    rw [pmPut, ih _ x m h.2, if_neg]
    rintro ⟨rfl, rfl⟩
    exact h.1 rfl

theorem pmPut_assign : ∀ (l : List ((ℕ × ℕ) × ℕ)) (s : PmState), (l.map Prod.fst).Nodup →
    ∀ e ∈ l, pmPut l s e.1.1 e.1.2 = e.2 := by
  intro l
  induction l with
  | nil => intro s _ e he; simp at he
  | cons e0 l ih =>
    intro s hnd e he
    obtain ⟨p, v⟩ := e0
    rw [List.map_cons, List.nodup_cons] at hnd
    rcases List.mem_cons.mp he with rfl | he
    · rw [pmPut, pmPut_frame _ _ _ _ hnd.1]; simp
    · rw [pmPut]; exact ih _ hnd.2 e he

theorem zip_all_map {α : Type} (f : α → ℕ) : ∀ (l : List α) (vs : List ℕ), vs.length = l.length →
    ((∀ x ∈ l.zip vs, f x.1 = x.2) ↔ l.map f = vs) := by
  intro l
  induction l with
  | nil => intro vs h; cases vs with
    | nil => simp
    | cons _ _ => simp at h
  | cons a l ih =>
    intro vs h
    cases vs with
    | nil => simp at h
    | cons v vs =>
      rw [List.zip_cons_cons, List.forall_mem_cons, ih vs (by simpa using h), List.map_cons, List.cons.injEq]

theorem pmMove_iff (size : ℕ → ℕ) (k : PmKind) (act : PmAct) (j : ℕ) (hj : j < k.membs)
    (hsz : ∀ a ∈ k.accs, 0 < size a.vbl) (hg : act.guards.length = k.accs.length)
    (hw : act.assigns.length = k.waccs.length) (hnd : (k.waccs.map (pmMemb size j)).Nodup) (s t : PmState) :
    ((∀ g ∈ (pmAction size k act).1, ∃ m, g.1.loc size j = some m ∧ s g.1.vbl m = g.2) ∧
        pmAssign size j (pmAction size k act).2 s = some t) ↔
      PmProto (k.accs.map (pmMemb size j)) (k.waccs.map (pmMemb size j)) act.guards act.assigns s t := by
  have hG : (∀ g ∈ (pmAction size k act).1, ∃ m, g.1.loc size j = some m ∧ s g.1.vbl m = g.2) ↔
      (k.accs.map (pmMemb size j)).map (fun x => s x.1 x.2) = act.guards := by
    rw [List.map_map, ← zip_all_map _ _ _ hg]
    simp only [pmAction, List.forall_mem_map]
    refine forall₂_congr fun x hx => ?_
    have hx1 := (List.of_mem_zip hx).1
    rw [pmRef_loc size k x.1 (hsz _ hx1) j hj]
    constructor
    · rintro ⟨m, hm, h⟩; cases hm; exact h
    · intro h; exact ⟨_, rfl, h⟩
  have hws : ∀ a ∈ k.waccs, a ∈ k.accs := fun a ha => (List.mem_filter.mp ha).1
  have hA := pmAssign_put size k j hj (k.waccs.zip act.assigns) s
    fun x hx => hsz _ (hws _ (List.of_mem_zip hx).1)
  have hfst : ((k.waccs.zip act.assigns).map fun x => (pmMemb size j x.1, x.2)).map Prod.fst =
      k.waccs.map (pmMemb size j) := by
    rw [List.map_map]
    have : (Prod.fst ∘ fun x : PmAcc × ℕ => (pmMemb size j x.1, x.2)) = (pmMemb size j) ∘ Prod.fst := rfl
    rw [this, ← List.map_map, List.map_fst_zip (by omega)]
  rw [hG]
  have hA' : pmAssign size j (pmAction size k act).2 s = some
      (pmPut ((k.waccs.zip act.assigns).map fun x => (pmMemb size j x.1, x.2)) s) := hA
  rw [hA', Option.some.injEq]
  have hput : ∀ x ∈ k.waccs.zip act.assigns,
      pmPut ((k.waccs.zip act.assigns).map fun x => (pmMemb size j x.1, x.2)) s (pmMemb size j x.1).1
        (pmMemb size j x.1).2 = x.2 := fun x hx =>
    pmPut_assign _ s (by rw [hfst]; exact hnd) (pmMemb size j x.1, x.2) (List.mem_map.mpr ⟨x, hx, rfl⟩)
  constructor
  · rintro ⟨h1, rfl⟩
    refine ⟨h1, ?_, ?_⟩
    · rw [List.map_map, ← zip_all_map _ _ _ hw]
      exact hput
    · intro x m h
      exact pmPut_frame _ _ _ _ (by rw [hfst]; exact h)
  · rintro ⟨h1, h2, h3⟩
    refine ⟨h1, ?_⟩
    rw [List.map_map, ← zip_all_map _ _ _ hw] at h2
    funext x m
    by_cases hin : (x, m) ∈ k.waccs.map (pmMemb size j)
    · rw [← List.map_fst_zip (l₁ := k.waccs) (l₂ := act.assigns) (by omega), List.map_map] at hin
      obtain ⟨y, hy, he⟩ := List.mem_map.mp hin
      have e1 := hput y hy
      have e2 : t (pmMemb size j y.1).1 (pmMemb size j y.1).2 = y.2 := h2 y hy
      have he' : pmMemb size j y.1 = (x, m) := he
      rw [he'] at e1 e2
      rw [e1, e2]
    · rw [h3 x m hin]
      exact pmPut_frame _ _ _ _ (by rw [hfst]; exact hin)

/-! ### Numbers of processes -/

theorem pmKinds_append (size : ℕ → ℕ) (acts : List PmAct) : ∀ (l1 l2 : List PmKind) (c off : ℕ),
    pmKinds size acts c (l1 ++ l2) off =
      pmKinds size acts c l1 off ++ pmKinds size acts (c + l1.length) l2 (off + (l1.map PmKind.membs).sum) := by
  intro l1
  induction l1 with
  | nil => intro l2 c off; simp [pmKinds]
  | cons k l1 ih =>
    intro l2 c off
    simp only [List.cons_append, pmKinds, ih, List.append_assoc, List.length_cons, List.map_cons, List.sum_cons]
    rw [show c + 1 + l1.length = c + (l1.length + 1) by omega, Nat.add_assoc off]

theorem pmKind_cases (size : ℕ → ℕ) (acts : List PmAct) (c : ℕ) (k : PmKind) (off : ℕ) :
    (pmKind size acts c k off = [] ∧ (k.membs = 0 ∨ ∀ a ∈ acts, a.kind ≠ c)) ∨
      (pmKind size acts c k off = [⟨k.membs, off, (acts.filter fun a => a.kind = c).map (pmAction size k)⟩] ∧
        0 < k.membs ∧ ∃ a ∈ acts, a.kind = c) := by
  unfold pmKind
  by_cases h0 : k.membs = 0
  · exact Or.inl ⟨by simp [h0], Or.inl h0⟩
  · rw [if_neg h0]
    by_cases h1 : (acts.any fun a => a.kind = c) = false
    · rw [if_pos h1]
      refine Or.inl ⟨rfl, Or.inr ?_⟩
      simpa using h1
    · rw [if_neg h1]
      refine Or.inr ⟨rfl, by omega, ?_⟩
      simpa using h1

theorem pmKinds_split (size : ℕ → ℕ) (acts : List PmAct) (p : PmProc) (post : List PmProc) :
    ∀ (ks : List PmKind) (c off : ℕ) (pre : List PmProc), pmKinds size acts c ks off = pre ++ p :: post →
      ∃ ks1 k ks2, ks = ks1 ++ k :: ks2 ∧ pre = pmKinds size acts c ks1 off ∧
        pmKind size acts (c + ks1.length) k (off + (ks1.map PmKind.membs).sum) = [p] := by
  intro ks
  induction ks with
  | nil => intro c off pre h; simp [pmKinds] at h
  | cons k ks ih =>
    intro c off pre h
    rw [pmKinds] at h
    rcases pmKind_cases size acts c k off with ⟨he, _⟩ | ⟨he, _⟩
    · rw [he, List.nil_append] at h
      obtain ⟨ks1, k', ks2, rfl, h2, h3⟩ := ih _ _ _ h
      refine ⟨k :: ks1, k', ks2, rfl, ?_, ?_⟩
      · rw [pmKinds, he, List.nil_append]; exact h2
      · rw [← h3, List.length_cons, List.map_cons, List.sum_cons]
        rw [show c + 1 + ks1.length = c + (ks1.length + 1) by omega, Nat.add_assoc off]
    · rw [he] at h
      cases pre with
      | nil =>
        simp only [List.singleton_append, List.nil_append, List.cons.injEq] at h
        refine ⟨[], k, ks, rfl, rfl, ?_⟩
        simp only [List.length_nil, List.map_nil, List.sum_nil, Nat.add_zero]
        rw [he, h.1]
      | cons p0 pre =>
        simp only [List.cons_append, List.nil_append, List.cons.injEq] at h
        obtain ⟨h1, h⟩ := h
        obtain ⟨ks1, k', ks2, rfl, h2, h3⟩ := ih _ _ _ h
        refine ⟨k :: ks1, k', ks2, rfl, ?_, ?_⟩
        · rw [pmKinds, he, ← h1, ← h2]; rfl
        · rw [← h3, List.length_cons, List.map_cons, List.sum_cons]
          rw [show c + 1 + ks1.length = c + (ks1.length + 1) by omega, Nat.add_assoc off]

theorem pmKinds_count (size : ℕ → ℕ) (acts : List PmAct) : ∀ (ks : List PmKind) (c off : ℕ),
    (∀ i k, ks[i]? = some k → 0 < k.membs → ∃ a ∈ acts, a.kind = c + i) →
      ((pmKinds size acts c ks off).map PmProc.count).sum = (ks.map PmKind.membs).sum := by
  intro ks
  induction ks with
  | nil => intro c off _; rfl
  | cons k ks ih =>
    intro c off h
    have h' := ih (c + 1) (off + k.membs) fun i k' hk hm => by
      obtain ⟨a, ha, he⟩ := h (i + 1) k' (by simpa using hk) hm
      exact ⟨a, ha, by omega⟩
    rw [pmKinds, List.map_append, List.sum_append, h', List.map_cons, List.sum_cons]
    congr 1
    rcases pmKind_cases size acts c k off with ⟨he, h0 | h0⟩ | ⟨he, _⟩
    · rw [he, h0]; rfl
    · by_cases hm : k.membs = 0
      · rw [he, hm]; rfl
      · obtain ⟨a, ha, hak⟩ := h 0 k rfl (by omega)
        exact absurd hak (h0 a ha)
    · rw [he]; simp

end Verif.Proofs
