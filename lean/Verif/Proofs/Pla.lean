import Verif.Model.Pla
import Mathlib.Data.List.Basic
import Mathlib.Tactic.Tauto

/-!
Proofs about the minimization of actions.
-/

namespace Verif.Proofs
open Verif.Spec Verif.Model

theorem plaVal_get {j n x : ℕ} (hx : x < n) : (plaVal j n)[x]? = some true ↔ x = j := by
  unfold plaVal
  rw [List.getElem?_map, List.getElem?_range hx]
  simp

theorem mem_plaVals {part : List Bool} {x : ℕ} : x ∈ plaVals part ↔ part[x]? = some true := by
  unfold plaVals
  rw [List.mem_filter, List.mem_range, beq_iff_eq]
  refine ⟨fun h => h.2, fun h => ⟨?_, h⟩⟩
  exact (List.getElem?_eq_some_iff.mp h).1

theorem plaVals_nodup (part : List Bool) : (plaVals part).Nodup := List.nodup_range.filter _

theorem plaGuard_holds {part : List Bool} {x : ℕ} (hx : x < part.length) :
    (plaGuard part).Holds x ↔ part[x]? = some true := by
  rw [← mem_plaVals]
  have hsum : (plaVals part).length + ((List.range part.length).filter fun j => !(plaVals part).contains j).length =
      part.length := by
    have e : ((List.range part.length).filter fun j => !(plaVals part).contains j) =
        (List.range part.length).filter fun j => !(part[j]? == some true) := by
      refine List.filter_congr fun j _ => ?_
      rw [Bool.eq_iff_iff]
      simp only [Bool.not_eq_true', List.contains_eq_mem, decide_eq_false_iff_not, mem_plaVals, beq_eq_false_iff_ne, ne_eq]
    rw [e]
    unfold plaVals
    rw [← List.countP_eq_length_filter, ← List.countP_eq_length_filter]
    have := List.length_eq_countP_add_countP (fun j : ℕ => part[j]? == some true) (l := List.range part.length)
    rw [List.length_range] at this
    refine Eq.trans ?_ this.symm
    congr 1
    refine List.countP_congr fun j _ => ?_
    simp
  have hout : ∀ y, y ∈ ((List.range part.length).filter fun j => !(plaVals part).contains j) ↔
      y < part.length ∧ y ∉ plaVals part := by
    intro y
    simp [List.mem_filter]
  unfold plaGuard
  split
  · rename_i h
    have h0 : ((List.range part.length).filter fun j => !(plaVals part).contains j) = [] := by
      apply List.eq_nil_of_length_eq_zero; omega
    simp only [PlaGuard.Holds, true_iff]
    by_contra hn
    have := (hout x).mpr ⟨hx, hn⟩
    rw [h0] at this
    exact absurd this (by simp)
  · split
    · rename_i h
      have h1 : ((List.range part.length).filter fun j => !(plaVals part).contains j).length = 1 := by omega
      obtain ⟨j, hj⟩ := List.length_eq_one_iff.mp h1
      have hf : (List.range part.length).find? (fun j => !(plaVals part).contains j) = some j := by
        rw [← List.head?_filter, hj]; rfl
      rw [hf]
      simp only [PlaGuard.Holds, Option.getD_some]
      have := hout x
      rw [hj, List.mem_singleton] at this
      tauto
    · rfl

theorem plaAssigns_spec : ∀ (l : List (List Bool)) (w : List ℕ), plaAssigns l = some w →
    ∀ p : List ℕ, PlaCovers l p ↔ p = w := by
  intro l
  induction l with
  | nil =>
    intro w h p
    cases h
    exact ⟨fun h => by cases h; rfl, fun h => by rw [h]; exact List.Forall₂.nil⟩
  | cons part l ih =>
    intro w h p
    rw [plaAssigns] at h
    split at h
    · rename_i v hv
      obtain ⟨w', hw', rfl⟩ := Option.map_eq_some_iff.mp h
      constructor
      · intro hc
        cases hc with
        | cons h1 h2 =>
          rw [(ih w' hw' _).mp h2]
          have := mem_plaVals.mpr h1
          rw [hv, List.mem_singleton] at this
          rw [this]
      · rintro rfl
        refine List.Forall₂.cons ?_ ((ih w' hw' _).mpr rfl)
        exact mem_plaVals.mp (by rw [hv]; simp)
    · exact absurd h (by simp)

theorem guards_holds : ∀ (l : List (List Bool)) (v : List ℕ),
    List.Forall₂ (fun x part => x < part.length) v l →
    (List.Forall₂ PlaGuard.Holds (l.map plaGuard) v ↔ PlaCovers l v) := by
  intro l
  induction l with
  | nil => intro v h; cases h; simp [PlaCovers]
  | cons part l ih =>
    intro v h
    cases h with
    | cons h1 h2 =>
      unfold PlaCovers
      rw [List.map_cons, List.forall₂_cons, List.forall₂_cons, plaGuard_holds h1]
      exact and_congr_right fun _ => ih _ h2

theorem covers_append : ∀ (a : List (List Bool)) (b : List (List Bool)) (v w : List ℕ), v.length = a.length →
    (PlaCovers (a ++ b) (v ++ w) ↔ PlaCovers a v ∧ PlaCovers b w) := by
  intro a
  induction a with
  | nil =>
    intro b v w h
    have : v = [] := List.eq_nil_of_length_eq_zero h
    subst this
    simp [PlaCovers]
  | cons x a ih =>
    intro b v w h
    cases v with
    | nil => simp at h
    | cons y v =>
      have := ih b v w (by simpa using h)
      unfold PlaCovers at this ⊢
      rw [List.cons_append, List.cons_append, List.forall₂_cons, List.forall₂_cons, this, and_assoc]

/-- A cube and the text for it. -/
theorem plaBack_spec {ng : ℕ} {cube : List (List Bool)} {t : List PlaGuard × List ℕ} (h : plaBack ng cube = some t)
    {gd ad : List ℕ} (hg : gd.length = ng)
    (hsh : List.Forall₂ (fun (part : List Bool) d => part.length = d) cube (gd ++ ad)) {v w : List ℕ}
    (hv : List.Forall₂ (fun x d => x < d) v gd) :
    PlaText t v w ↔ PlaCovers cube (v ++ w) := by
  obtain ⟨w', hw', rfl⟩ := Option.map_eq_some_iff.mp h
  have hlen : ng ≤ cube.length := by
    have := hsh.length_eq
    rw [List.length_append] at this
    omega
  have htake : List.Forall₂ (fun (part : List Bool) d => part.length = d) (cube.take ng) gd := by
    have := List.forall₂_take ng hsh
    rwa [List.take_left' hg] at this
  have hvt : List.Forall₂ (fun x (part : List Bool) => x < part.length) v (cube.take ng) := by
    clear hsh hw'
    generalize cube.take ng = l at htake
    clear hlen h hg
    induction hv generalizing l with
    | nil => cases htake; exact .nil
    | cons h1 _ ih =>
      cases htake with
      | cons h3 h4 => exact .cons (by rw [h3]; exact h1) (ih _ h4)
  have hvl : v.length = (cube.take ng).length := hvt.length_eq
  unfold PlaText
  simp only
  rw [guards_holds _ _ hvt]
  conv_rhs => rw [← List.take_append_drop ng cube]
  rw [covers_append _ _ _ _ hvl, plaAssigns_spec _ _ hw']

theorem plaBackAll_mem {ng : ℕ} : ∀ {cubes : List (List (List Bool))} {ts : List (List PlaGuard × List ℕ)},
    plaBackAll ng cubes = some ts → List.Forall₂ (fun c t => plaBack ng c = some t) cubes ts := by
  intro cubes
  induction cubes with
  | nil => intro ts h; cases h; exact .nil
  | cons c l ih =>
    intro ts h
    rw [plaBackAll] at h
    split at h
    · exact absurd h (by simp)
    · rename_i t ht
      obtain ⟨ts', h', rfl⟩ := Option.map_eq_some_iff.mp h
      exact .cons ht (ih h')

theorem forall₂_mem_left {α β : Type} {R : α → β → Prop} {l : List α} {m : List β} (h : List.Forall₂ R l m) :
    ∀ a ∈ l, ∃ b ∈ m, R a b := by
  induction h with
  | nil => simp
  | cons h1 _ ih =>
    intro a ha
    rcases List.mem_cons.mp ha with rfl | ha
    · exact ⟨_, List.mem_cons_self, h1⟩
    · obtain ⟨b, hb, hr⟩ := ih a ha
      exact ⟨b, List.mem_cons_of_mem _ hb, hr⟩

theorem forall₂_mem_right {α β : Type} {R : α → β → Prop} {l : List α} {m : List β} (h : List.Forall₂ R l m) :
    ∀ b ∈ m, ∃ a ∈ l, R a b := by
  induction h with
  | nil => simp
  | cons h1 _ ih =>
    intro a ha
    rcases List.mem_cons.mp ha with rfl | ha
    · exact ⟨_, List.mem_cons_self, h1⟩
    · obtain ⟨b, hb, hr⟩ := ih a ha
      exact ⟨b, List.mem_cons_of_mem _ hb, hr⟩

/-- Parts that have a single value. -/
theorem vals_covers : ∀ (xs : List (Access × ℕ)) (p : List ℕ),
    List.Forall₂ (fun (x : ℕ) (d : ℕ) => x < d) p (xs.map fun x => x.1.domsz) →
    (PlaCovers (xs.map fun x => plaVal x.2 x.1.domsz) p ↔ p = xs.map Prod.snd) := by
  intro xs
  induction xs with
  | nil => intro p h; cases h; simp [PlaCovers]
  | cons x xs ih =>
    intro p h
    rw [List.map_cons] at h
    cases h with
    | cons h1 h2 =>
      unfold PlaCovers
      rw [List.map_cons, List.map_cons, List.forall₂_cons, plaVal_get h1, List.cons.injEq]
      exact and_congr_right fun _ => ih _ h2

end Verif.Proofs

namespace Verif.Proofs
open Verif.Spec Verif.Model

theorem zip_filter_fst (p : Access → Bool) : ∀ (accs : List Access) (v : List ℕ), v.length = accs.length →
    ((accs.zip v).filter fun x => p x.1).map Prod.fst = accs.filter p := by
  intro accs
  induction accs with
  | nil => intro v _; simp
  | cons a accs ih =>
    intro v h
    cases v with
    | nil => simp at h
    | cons x v =>
      have := ih v (by simpa using h)
      rw [List.zip_cons_cons]
      by_cases hp : p a = true
      · rw [List.filter_cons_of_pos (by simpa using hp), List.filter_cons_of_pos hp, List.map_cons, this]
      · rw [List.filter_cons_of_neg (by simpa using hp), List.filter_cons_of_neg hp, this]

theorem visible_below : ∀ (accs : List Access) (v : List ℕ), List.Forall₂ (fun x (a : Access) => x < a.domsz) v accs →
    List.Forall₂ (fun x d => x < d) (plaVisible accs v) ((accs.filter fun a => !a.pureShadowCk).map Access.domsz) := by
  intro accs
  induction accs with
  | nil => intro v h; cases h; exact .nil
  | cons a accs ih =>
    intro v h
    cases h with
    | cons h1 h2 =>
      have := ih _ h2
      unfold plaVisible at this ⊢
      rw [List.zip_cons_cons]
      cases hp : a.pureShadowCk
      · rw [List.filter_cons_of_pos (by simp [hp]), List.filter_cons_of_pos (by simp [hp]), List.map_cons, List.map_cons]
        exact .cons h1 this
      · rw [List.filter_cons_of_neg (by simp [hp]), List.filter_cons_of_neg (by simp [hp])]
        exact this

theorem visible_eq : ∀ (accs : List Access) (v g : List ℕ), v.length = accs.length → g.length = accs.length →
    ((∀ (i : ℕ) (a : Access), accs[i]? = some a → a.pureShadowCk = false → v[i]? = g[i]?) ↔
      plaVisible accs v = plaVisible accs g) := by
  intro accs
  induction accs with
  | nil => intro v g _ _; simp [plaVisible]
  | cons a accs ih =>
    intro v g hv hg
    cases v with
    | nil => simp at hv
    | cons x v =>
    cases g with
    | nil => simp at hg
    | cons y g =>
      have h := ih v g (by simpa using hv) (by simpa using hg)
      have hsplit : (∀ (i : ℕ) (b : Access), (a :: accs)[i]? = some b → b.pureShadowCk = false →
          (x :: v)[i]? = (y :: g)[i]?) ↔ (a.pureShadowCk = false → x = y) ∧
          ∀ (i : ℕ) (b : Access), accs[i]? = some b → b.pureShadowCk = false → v[i]? = g[i]? := by
        constructor
        · intro H
          exact ⟨fun ha => by simpa using H 0 a rfl ha, fun i b hb hs => by simpa using H (i + 1) b (by simpa using hb) hs⟩
        · rintro ⟨H1, H2⟩ i b hb hs
          cases i with
          | zero => cases hb; simp [H1 hs]
          | succ i => simpa using H2 i b (by simpa using hb) hs
      rw [hsplit, h]
      unfold plaVisible
      rw [List.zip_cons_cons, List.zip_cons_cons]
      cases hp : a.pureShadowCk
      · rw [List.filter_cons_of_pos (by simp [hp]), List.filter_cons_of_pos (by simp [hp]), List.map_cons, List.map_cons,
          List.cons.injEq]
        simp
      · rw [List.filter_cons_of_neg (by simp [hp]), List.filter_cons_of_neg (by simp [hp])]
        simp

theorem row_covers {accs : List Access} {act : PlaAct} (hg : act.guards.length = accs.length)
    (ha : act.assigns.length = (accs.filter Access.writeCk).length) {v w : List ℕ}
    (hv : List.Forall₂ (fun x d => x < d) v ((accs.filter fun a => !a.pureShadowCk).map Access.domsz))
    (hw : List.Forall₂ (fun x d => x < d) w ((accs.filter Access.writeCk).map Access.domsz)) :
    PlaCovers (plaRow accs act) (v ++ w) ↔ v = plaVisible accs act.guards ∧ w = act.assigns := by
  have h1 : ((accs.zip act.guards).filter fun x => !x.1.pureShadowCk).map (fun x => x.1.domsz) =
      (accs.filter fun a => !a.pureShadowCk).map Access.domsz := by
    rw [← zip_filter_fst (fun a => !a.pureShadowCk) accs act.guards hg, List.map_map]
    rfl
  have h2 : ((accs.filter Access.writeCk).zip act.assigns).map (fun x => x.1.domsz) =
      (accs.filter Access.writeCk).map Access.domsz := by
    have : ((accs.filter Access.writeCk).zip act.assigns).map Prod.fst = accs.filter Access.writeCk :=
      List.map_fst_zip (by omega)
    conv_rhs => rw [← this, List.map_map]
    rfl
  have h3 : ((accs.filter Access.writeCk).zip act.assigns).map Prod.snd = act.assigns :=
    List.map_snd_zip (by omega)
  unfold plaRow
  rw [covers_append, vals_covers _ _ (by rw [h1]; exact hv), vals_covers _ _ (by rw [h2]; exact hw), h3]
  · rfl
  · have := hv.length_eq
    rw [← h1] at this
    simpa using this

theorem does_iff {accs : List Access} (hp : ∀ a ∈ accs, (a.role ≠ .shadow → a.readCk = true) ∧ a.type ≠ .randomWrite)
    {guards assigns v w : List ℕ} (hv : v.length = accs.length) (hg : guards.length = accs.length)
    (hw : w.length = (accs.filter Access.writeCk).length)
    (ha : List.Forall₂ (fun x (a : Access) => x < a.domsz) assigns (accs.filter Access.writeCk)) :
    PlaDoes accs guards assigns v w ↔ plaVisible accs v = plaVisible accs guards ∧ w = assigns := by
  have hread : ∀ a ∈ accs, (a.syntReadCk = true ↔ a.pureShadowCk = false) := by
    intro a h
    have := (hp a h).1
    rcases a with ⟨ty, ro, d⟩
    cases ro <;> simp_all [Access.syntReadCk, Access.puppetCk, Access.pureShadowCk]
  have hfst := zip_filter_fst Access.writeCk accs v hv
  have hnd : ∀ (k : ℕ) (x : Access × ℕ), ((accs.zip v).filter fun x => x.1.writeCk)[k]? = some x →
      x.1 ∈ accs ∧ ∃ y, assigns[k]? = some y ∧ y < x.1.domsz := by
    intro k x hx
    have hx1 : (accs.filter Access.writeCk)[k]? = some x.1 := by
      rw [← hfst, List.getElem?_map, hx]; rfl
    obtain ⟨hk, he⟩ := List.getElem?_eq_some_iff.mp hx1
    refine ⟨(List.mem_filter.mp (List.mem_of_getElem? hx1)).1, ?_⟩
    have hk' : k < assigns.length := by rw [ha.length_eq]; exact hk
    refine ⟨assigns[k], List.getElem?_eq_getElem hk', ?_⟩
    rw [← he]
    exact (List.forall₂_iff_get.mp ha).2 k hk' hk
  rw [← visible_eq accs v guards hv hg]
  constructor
  · rintro ⟨h1, h2⟩
    refine ⟨fun i a hi hs => h1 i a hi ((hread a (List.mem_of_getElem? hi)).mpr hs), ?_⟩
    refine List.ext_getElem? fun k => ?_
    by_cases hk : k < w.length
    · have hk' : k < ((accs.zip v).filter fun x => x.1.writeCk).length := by
        have := congrArg List.length hfst
        rw [List.length_map] at this
        omega
      have hx := List.getElem?_eq_getElem hk'
      obtain ⟨hm, y, hy, hlt⟩ := hnd k _ hx
      rw [h2 k _ hx (hp _ hm).2, if_neg]
      rw [hy]
      intro he
      cases he
      omega
    · rw [List.getElem?_eq_none (by omega), List.getElem?_eq_none (by rw [ha.length_eq]; omega)]
  · rintro ⟨h1, rfl⟩
    refine ⟨fun i a hi hs => h1 i a hi ((hread a (List.mem_of_getElem? hi)).mp hs), ?_⟩
    intro k x hx _
    obtain ⟨hm, y, hy, hlt⟩ := hnd k _ hx
    rw [if_neg]
    rw [hy]
    intro he
    cases he
    omega

/-- A part without or with several values in the assignments. -/
theorem assigns_none : ∀ (l : List (List Bool)), (∀ part ∈ l, ∃ x : ℕ, part[x]? = some true) → plaAssigns l = none →
    ∃ w w', w ≠ w' ∧ PlaCovers l w ∧ PlaCovers l w' := by
  intro l
  induction l with
  | nil => intro _ h; cases h
  | cons part l ih =>
    intro hne h
    obtain ⟨x, hx⟩ := hne part List.mem_cons_self
    have hne' : ∀ part ∈ l, ∃ x : ℕ, part[x]? = some true := fun q hq => hne q (List.mem_cons_of_mem _ hq)
    have hsome : ∃ w, PlaCovers l w := by
      clear ih h
      induction l with
      | nil => exact ⟨[], .nil⟩
      | cons q l ih2 =>
        obtain ⟨y, hy⟩ := hne' q List.mem_cons_self
        obtain ⟨w, hw⟩ := ih2 (fun z hz => hne z (by
          rcases List.mem_cons.mp hz with rfl | hz
          · exact List.mem_cons_self
          · exact List.mem_cons_of_mem _ (List.mem_cons_of_mem _ hz))) (fun z hz => hne' z (List.mem_cons_of_mem _ hz))
        exact ⟨y :: w, .cons hy hw⟩
    rw [plaAssigns] at h
    split at h
    · rename_i v hv
      rw [Option.map_eq_none_iff] at h
      obtain ⟨w, w', h1, h2, h3⟩ := ih hne' h
      exact ⟨x :: w, x :: w', by simpa using h1, .cons hx h2, .cons hx h3⟩
    · rename_i hns
      obtain ⟨w, hw⟩ := hsome
      have hxm := mem_plaVals.mpr hx
      have : ∃ y ∈ plaVals part, y ≠ x := by
        by_contra hno
        push Not at hno
        have hnd := plaVals_nodup part
        have : plaVals part = [x] := by
          cases hpv : plaVals part with
          | nil => rw [hpv] at hxm; simp at hxm
          | cons a m =>
            rw [hpv] at hno hnd
            have ha : a = x := hno a List.mem_cons_self
            cases m with
            | nil => rw [ha]
            | cons b m =>
              have hb : b = x := hno b (by simp)
              rw [ha, hb] at hnd
              simp at hnd
        exact hns x this
      obtain ⟨y, hy, hyx⟩ := this
      exact ⟨x :: w, y :: w, by simpa using fun h => hyx h.symm, .cons hx hw, .cons (mem_plaVals.mp hy) hw⟩

end Verif.Proofs

namespace Verif.Proofs
open Verif.Spec Verif.Model

theorem covers_some : ∀ (l : List (List Bool)), (∀ part ∈ l, ∃ x : ℕ, part[x]? = some true) → ∃ v, PlaCovers l v := by
  intro l
  induction l with
  | nil => exact fun _ => ⟨[], .nil⟩
  | cons part l ih =>
    intro h
    obtain ⟨x, hx⟩ := h part List.mem_cons_self
    obtain ⟨v, hv⟩ := ih fun q hq => h q (List.mem_cons_of_mem _ hq)
    exact ⟨x :: v, .cons hx hv⟩

theorem covers_below {l : List (List Bool)} {ds : List ℕ}
    (hs : List.Forall₂ (fun (part : List Bool) d => part.length = d ∧ ∃ x < d, part[x]? = some true) l ds) :
    ∀ {v : List ℕ}, PlaCovers l v → List.Forall₂ (fun x d => x < d) v ds := by
  induction hs with
  | nil => intro v h; cases h; exact .nil
  | cons h1 _ ih =>
    intro v h
    cases h with
    | cons h2 h3 => exact .cons (by rw [← h1.1]; exact (List.getElem?_eq_some_iff.mp h2).1) (ih h3)

theorem below_append {v w d e : List ℕ} (h : List.Forall₂ (fun x d => x < d) v d)
    (h' : List.Forall₂ (fun x d => x < d) w e) : List.Forall₂ (fun x d => x < d) (v ++ w) (d ++ e) := by
  induction h with
  | nil => exact h'
  | cons h1 _ ih => exact .cons h1 ih

end Verif.Proofs
