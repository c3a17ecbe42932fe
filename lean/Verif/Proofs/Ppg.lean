import Verif.Props.UniId
import Mathlib.Data.List.Induction

/-! Lemmas about propagation functions and action sets. -/

namespace Verif.Model

theorem mapM_some {α β : Type} {l : List α} {f : α → Option β} {g : α → β}
    (h : ∀ x ∈ l, f x = some (g x)) : l.mapM f = some (l.map g) := by
  induction l with
  | nil => rfl
  | cons a l ih =>
    rw [List.mapM_cons, h a (by simp), ih fun x hx => h x (by simp [hx])]
    rfl

theorem foldlM_some {α β : Type} {l : List α} {f : β → α → Option β} {g : β → α → β} {P : β → Prop}
    (h : ∀ x ∈ l, ∀ b, P b → f b x = some (g b x) ∧ P (g b x)) {b : β} (hb : P b) :
    l.foldlM f b = some (l.foldl g b) ∧ P (l.foldl g b) := by
  induction l generalizing b with
  | nil => exact ⟨rfl, hb⟩
  | cons a l ih =>
    obtain ⟨h1, h2⟩ := h a (by simp) b hb
    obtain ⟨h3, h4⟩ := ih (fun x hx => h x (by simp [hx])) h2
    refine ⟨?_, h4⟩
    rw [List.foldlM_cons, h1]
    exact h3

theorem pair_lt {a b d : ℕ} (ha : a < d) (hb : b < d) : a * d + b < d * d :=
  calc a * d + b < a * d + d := by omega
    _ = (a + 1) * d := by ring
    _ ≤ d * d := Nat.mul_le_mul_right d ha

theorem pair_inj {a b a' b' d : ℕ} (hb : b < d) (hb' : b' < d) :
    a * d + b = a' * d + b' ↔ a = a' ∧ b = b' := by
  constructor
  · intro h
    have h1 := congrArg (· % d) h
    simp only [Nat.add_comm (a * d),
      Nat.add_comm (a' * d), Nat.add_mul_mod_self_right, Nat.mod_eq_of_lt hb,
      Nat.mod_eq_of_lt hb'] at h1
    subst h1
    have : a * d = a' * d := by omega
    exact ⟨Nat.eq_of_mul_eq_mul_right (by omega) this, rfl⟩
  · rintro ⟨rfl, rfl⟩; rfl

theorem mem_pairsUpTo {d : ℕ} {p : ℕ × ℕ} : p ∈ pairsUpTo d ↔ p.1 < d ∧ p.2 < d := by
  obtain ⟨a, b⟩ := p
  simp [pairsUpTo]

/-- The action stored at a pair of values. -/
def actAt (ppg : List ℕ) (d : ℕ) (p : ℕ × ℕ) : List UniAct :=
  if ppg.getD (p.1 * d + p.2) d < d then [(p.1, p.2, ppg.getD (p.1 * d + p.2) d)] else []

theorem actionsOfPpg_eq {ppg : List ℕ} {d : ℕ} (hd : 0 < d) (hd' : d ≤ 256)
    (hl : ppg.length = d * d) :
    actionsOfPpg ppg d = some ((pairsUpTo d).flatMap (actAt ppg d)) := by
  unfold actionsOfPpg
  simp only [hd.ne', if_false]
  rw [mapM_some (g := actAt ppg d)]
  · simp [List.flatMap]
  · rintro ⟨a, b⟩ hp
    obtain ⟨ha, hb⟩ := mem_pairsUpTo.1 hp
    have ha : a < d := ha
    have hb : b < d := hb
    have hi := pair_lt ha hb
    have hg : ppg[a * d + b]? = some (ppg.getD (a * d + b) d) := by
      rw [List.getD_eq_getElem?_getD, List.getElem?_eq_getElem (by omega)]; rfl
    simp only [actionAt, idOf2, ha, hb, and_self, if_true, Option.bind_some, hg, Option.map_some,
      actAt]
    congr 1
    split
    · rename_i hc
      rw [Props.toByte_of_lt ha hd', Props.toByte_of_lt hb hd', Props.toByte_of_lt hc hd']
    · rfl

theorem mem_actions {ppg : List ℕ} {d : ℕ} {t : UniAct} :
    t ∈ (pairsUpTo d).flatMap (actAt ppg d) ↔
      t.1 < d ∧ t.2.1 < d ∧ t.2.2 < d ∧ ppg.getD (t.1 * d + t.2.1) d = t.2.2 := by
  obtain ⟨a, b, c⟩ := t
  simp only [List.mem_flatMap, Prod.exists, mem_pairsUpTo]
  constructor
  · rintro ⟨a', b', ⟨ha, hb⟩, h⟩
    unfold actAt at h
    split at h
    · rename_i hc
      simp only [List.mem_singleton, Prod.mk.injEq] at h
      obtain ⟨rfl, rfl, rfl⟩ := h
      exact ⟨ha, hb, hc, rfl⟩
    · simp at h
  · rintro ⟨ha, hb, hc, h⟩
    refine ⟨a, b, ⟨ha, hb⟩, ?_⟩
    have h : ppg.getD (a * d + b) d = c := h
    have hc : c < d := hc
    simp only [actAt, h, hc, if_true, List.mem_singleton]

/-- Plain assignment of an action. -/
def ppgPut (d : ℕ) (ppg : List ℕ) (act : UniAct) : List ℕ := ppg.set (act.1 * d + act.2.1) act.2.2

theorem ppgfun_foldlM {acts : List UniAct} {d : ℕ} (hd' : d ≤ 256)
    (hr : ∀ t ∈ acts, t.1 < d ∧ t.2.1 < d ∧ t.2.2 < d) {ppg : List ℕ}
    (hl : ppg.length = d * d) :
    acts.foldlM (ppgAssign d) ppg = some (acts.foldl (ppgPut d) ppg) ∧
      (acts.foldl (ppgPut d) ppg).length = d * d := by
  refine foldlM_some (P := fun b : List ℕ => b.length = d * d) ?_ hl
  intro t ht b hb
  obtain ⟨h1, h2, h3⟩ := hr t ht
  have := pair_lt h1 h2
  constructor
  · simp [ppgAssign, idOf2, h1, h2, hb, this, ppgPut, Props.toByte_of_lt h3 hd']
  · simp [ppgPut, hb]

theorem getD_ppgPut_ne {d i x : ℕ} {ppg : List ℕ} {t : UniAct} (h : t.1 * d + t.2.1 ≠ i) :
    (ppgPut d ppg t).getD i x = ppg.getD i x := by
  simp [ppgPut, List.getD_eq_getElem?_getD, h]

theorem getD_ppgPut_eq {d x : ℕ} {ppg : List ℕ} {t : UniAct}
    (h : t.1 * d + t.2.1 < ppg.length) :
    (ppgPut d ppg t).getD (t.1 * d + t.2.1) x = t.2.2 := by
  simp [ppgPut, List.getD_eq_getElem?_getD, h]

theorem foldl_ppgPut_length {d : ℕ} (l : List UniAct) (ppg : List ℕ) :
    (l.foldl (ppgPut d) ppg).length = ppg.length := by
  induction l generalizing ppg with
  | nil => rfl
  | cons u l ih => rw [List.foldl_cons, ih]; simp [ppgPut]

/-- Deterministic: no two actions with the same guard and different new values. -/
def Determ (acts : List UniAct) : Prop :=
  ∀ a b c c', (a, b, c) ∈ acts → (a, b, c') ∈ acts → c = c'

theorem foldl_ppgPut_get {acts : List UniAct} {d : ℕ}
    (hr : ∀ t ∈ acts, t.1 < d ∧ t.2.1 < d ∧ t.2.2 < d) (hdet : Determ acts) {ppg : List ℕ}
    (hl : ppg.length = d * d) {a b : ℕ} (ha : a < d) (hb : b < d) (x : ℕ) :
    (∀ c, (a, b, c) ∈ acts → (acts.foldl (ppgPut d) ppg).getD (a * d + b) x = c) ∧
    ((∀ c, (a, b, c) ∉ acts) →
      (acts.foldl (ppgPut d) ppg).getD (a * d + b) x = ppg.getD (a * d + b) x) := by
  induction acts using List.reverseRecOn with
  | nil => simp
  | append_singleton l t ih =>
    obtain ⟨i1, i2⟩ := ih (fun t ht => hr t (by simp [ht]))
      (fun a b c c' h h' => hdet a b c c' (by simp [h]) (by simp [h']))
    have hlen : (l.foldl (ppgPut d) ppg).length = d * d := by rw [foldl_ppgPut_length, hl]
    rw [List.foldl_append, List.foldl_cons, List.foldl_nil]
    obtain ⟨h1, h2, h3⟩ := hr t (by simp)
    by_cases he : t.1 = a ∧ t.2.1 = b
    · obtain ⟨rfl, rfl⟩ := he
      have hv := getD_ppgPut_eq (x := x) (d := d) (ppg := l.foldl (ppgPut d) ppg) (t := t)
        (by rw [hlen]; exact pair_lt h1 h2)
      refine ⟨fun c hc => ?_, fun hn => absurd (show (t.1, t.2.1, t.2.2) ∈ l ++ [t] by simp)
        (hn t.2.2)⟩
      rw [hv]
      exact hdet t.1 t.2.1 t.2.2 c (by simp) hc
    · have hne : t.1 * d + t.2.1 ≠ a * d + b := fun h => he ((pair_inj h2 hb).1 h)
      rw [getD_ppgPut_ne hne]
      refine ⟨fun c hc => i1 c ?_, fun hn => i2 fun c hc => hn c (by simp [hc])⟩
      rcases List.mem_append.1 hc with h | h
      · exact h
      · simp only [List.mem_singleton] at h
        subst h
        exact absurd ⟨rfl, rfl⟩ he

theorem getD_ext {l l' : List ℕ} {n x : ℕ} (h : l.length = n) (h' : l'.length = n)
    (he : ∀ i < n, l.getD i x = l'.getD i x) : l = l' := by
  apply List.ext_getElem (by rw [h, h'])
  intro i h1 h2
  have := he i (by omega)
  simpa [List.getD_eq_getElem?_getD, h1, h2] using this

theorem split_pair {i d : ℕ} (h : i < d * d) : i / d < d ∧ i % d < d ∧ i / d * d + i % d = i := by
  have hd : 0 < d := by
    rcases Nat.eq_zero_or_pos d with rfl | h'
    · simp at h
    · exact h'
  exact ⟨Nat.div_lt_of_lt_mul h, Nat.mod_lt _ hd, Nat.div_add_mod' _ _⟩

theorem pairsUpTo_sorted (d : ℕ) :
    (pairsUpTo d).Pairwise fun p q => p.1 < q.1 ∨ (p.1 = q.1 ∧ p.2 < q.2) := by
  unfold pairsUpTo
  rw [List.pairwise_flatMap]
  constructor
  · intro a _
    rw [List.pairwise_map]
    exact List.pairwise_lt_range.imp fun h => .inr ⟨rfl, h⟩
  · refine List.pairwise_lt_range.imp ?_
    intro a a' h x hx y hy
    obtain ⟨b, -, rfl⟩ := List.mem_map.1 hx
    obtain ⟨b', -, rfl⟩ := List.mem_map.1 hy
    exact .inl h

/-- Lexicographic order on actions. -/
def actLt (s t : UniAct) : Prop :=
  s.1 < t.1 ∨ (s.1 = t.1 ∧ (s.2.1 < t.2.1 ∨ (s.2.1 = t.2.1 ∧ s.2.2 < t.2.2)))

theorem actions_sorted (ppg : List ℕ) (d : ℕ) :
    ((pairsUpTo d).flatMap (actAt ppg d)).Pairwise actLt := by
  rw [List.pairwise_flatMap]
  constructor
  · intro p _
    unfold actAt
    split <;> simp
  · refine (pairsUpTo_sorted d).imp ?_
    intro p q h x hx y hy
    have key : ∀ (p : ℕ × ℕ) (x : UniAct), x ∈ actAt ppg d p → x.1 = p.1 ∧ x.2.1 = p.2 := by
      intro p x hx
      unfold actAt at hx
      split at hx
      · simp only [List.mem_singleton] at hx; subst hx; exact ⟨rfl, rfl⟩
      · simp at hx
    obtain ⟨h1, h2⟩ := key p x hx
    obtain ⟨h3, h4⟩ := key q y hy
    unfold actLt
    rw [h1, h2, h3, h4]
    rcases h with h | ⟨h, h'⟩
    · exact .inl h
    · exact .inr ⟨h, .inl h'⟩

/-- The identifier of an action. -/
def aid (d : ℕ) (t : UniAct) : ℕ := (t.1 * d + t.2.1) * d + t.2.2

theorem aid_lt {d : ℕ} {t : UniAct} (h1 : t.1 < d) (h2 : t.2.1 < d) (h3 : t.2.2 < d) :
    aid d t < d * d * d := by
  have := pair_lt h1 h2
  calc aid d t < (t.1 * d + t.2.1) * d + d := by unfold aid; omega
    _ = (t.1 * d + t.2.1 + 1) * d := by ring
    _ ≤ (d * d) * d := Nat.mul_le_mul_right d this

theorem actset_foldl {d : ℕ} {ppg : List ℕ} (hl : ppg.length = d * d) (l : List (ℕ × ℕ))
    (hp : ∀ p ∈ l, p.1 < d ∧ p.2 < d) (bt : List Bool) (hb : bt.length = d * d * d) :
    l.foldlM (actsetRound ppg d) bt =
      some ((l.flatMap (actAt ppg d)).foldl (fun bt t => bt.set (aid d t) true) bt) := by
  induction l generalizing bt with
  | nil => rfl
  | cons p l ih =>
    obtain ⟨ha, hb'⟩ := hp p (by simp)
    have hi := pair_lt ha hb'
    have hg : ppg[p.1 * d + p.2]? = some (ppg.getD (p.1 * d + p.2) d) := by
      rw [List.getD_eq_getElem?_getD, List.getElem?_eq_getElem (by omega)]; rfl
    rw [List.foldlM_cons, List.flatMap_cons, List.foldl_append]
    have hstep : actsetRound ppg d bt p =
        some ((actAt ppg d p).foldl (fun bt t => bt.set (aid d t) true) bt) := by
      simp only [actsetRound, idOf2, ha, hb', and_self, if_true, Option.bind_some, hg, actAt]
      split
      · rename_i hc
        simp only [idOf3, ha, hb', hc, and_self, if_true, Option.map_some, aid, List.foldl_cons,
          List.foldl_nil]
      · rfl
    rw [hstep]
    exact ih (fun p hp' => hp p (by simp [hp'])) _ (by
      unfold actAt; split <;> simp [hb])

theorem foldl_set_get {d : ℕ} (l : List UniAct) (bt : List Bool) (i : ℕ) (hi : i < bt.length) :
    (l.foldl (fun bt t => bt.set (aid d t) true) bt).getD i false =
      (bt.getD i false || decide (i ∈ l.map (aid d))) ∧
    (l.foldl (fun bt t => bt.set (aid d t) true) bt).length = bt.length := by
  induction l generalizing bt with
  | nil => simp
  | cons t l ih =>
    rw [List.foldl_cons]
    obtain ⟨h1, h2⟩ := ih (bt.set (aid d t) true) (by simpa using hi)
    refine ⟨?_, by rw [h2]; simp⟩
    rw [h1]
    by_cases he : aid d t = i
    · subst he
      simp [List.getD_eq_getElem?_getD, hi]
    · have : (i ∈ List.map (aid d) (t :: l)) ↔ i ∈ List.map (aid d) l := by
        rw [List.map_cons, List.mem_cons]; exact or_iff_right (Ne.symm he)
      simp only [this]
      simp [List.getD_eq_getElem?_getD, he]

theorem aid_mono {d : ℕ} {s t : UniAct} (h1 : s.2.1 < d) (h2 : s.2.2 < d)
    (h : actLt s t) : aid d s < aid d t := by
  unfold aid
  have key : ∀ x y u v : ℕ, u < d → x < y → x * d + u < y * d + v := by
    intro x y u v hu hxy
    calc x * d + u < x * d + d := by omega
      _ = (x + 1) * d := by ring
      _ ≤ y * d := Nat.mul_le_mul_right d hxy
      _ ≤ y * d + v := Nat.le_add_right _ _
  rcases h with h | ⟨e, h | ⟨e', h⟩⟩
  · exact key _ _ _ _ h2 (key _ _ _ _ h1 h)
  · rw [e]; exact key _ _ _ _ h2 (by omega)
  · rw [e, e']; omega

end Verif.Model
