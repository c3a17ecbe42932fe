import Verif.Proofs.Ppg

/-! Property C27: action lists, action sets and propagation functions are interchangeable. -/

namespace Verif.Props
open Verif.Model

/-- **C27, actions to propagation function and back.** For a domain of size `1 ≤ d ≤ 255` and any
deterministic list of actions over it, the conversions succeed, and the actions of the propagation
function are exactly the given ones, in strictly ascending order (so each once). -/
theorem C27_actions_round_trip (d : ℕ) (hd : 0 < d) (hd' : d ≤ 255) (acts : List UniAct)
    (hr : ∀ t ∈ acts, t.1 < d ∧ t.2.1 < d ∧ t.2.2 < d)
    (hdet : ∀ a b c c', (a, b, c) ∈ acts → (a, b, c') ∈ acts → c = c') :
    ∃ ppg acts', ppgfunOfActs acts d = some ppg ∧ ppg.length = d * d ∧ (∀ v ∈ ppg, v ≤ d) ∧
      actionsOfPpg ppg d = some acts' ∧ (∀ t, t ∈ acts' ↔ t ∈ acts) ∧
      acts'.Pairwise (fun s t => s.1 < t.1 ∨
        (s.1 = t.1 ∧ (s.2.1 < t.2.1 ∨ (s.2.1 = t.2.1 ∧ s.2.2 < t.2.2)))) := by
  have hdb : toByte d = d := Nat.mod_eq_of_lt (by omega)
  have h0 : (List.replicate (d * d) d).length = d * d := by simp
  obtain ⟨h1, h2⟩ := ppgfun_foldlM (by omega : d ≤ 256) hr h0
  have hrep : ∀ i < d * d, (List.replicate (d * d) d).getD i d = d := by
    intro i hi; simp [List.getD_eq_getElem?_getD, List.getElem?_replicate, hi]
  have hval : ∀ a b, a < d → b < d → ∀ c, c < d →
      ((acts.foldl (ppgPut d) (List.replicate (d * d) d)).getD (a * d + b) d = c ↔
        (a, b, c) ∈ acts) := by
    intro a b ha hb c hc
    obtain ⟨g1, g2⟩ := foldl_ppgPut_get hr hdet h0 ha hb d
    constructor
    · intro h
      by_contra hn
      by_cases hex : ∃ c', (a, b, c') ∈ acts
      · obtain ⟨c', hc'⟩ := hex
        rw [g1 c' hc'] at h
        subst h
        exact hn hc'
      · push Not at hex
        rw [g2 hex, hrep _ (pair_lt ha hb)] at h
        omega
    · exact g1 c
  refine ⟨acts.foldl (ppgPut d) (List.replicate (d * d) d), _, ?_, h2, ?_,
    actionsOfPpg_eq hd (by omega) h2, ?_, actions_sorted _ _⟩
  · simp only [ppgfunOfActs, hd.ne', if_false, hdb]
    exact h1
  · intro v hv
    obtain ⟨i, hi, rfl⟩ := List.mem_iff_getElem.1 hv
    rw [h2] at hi
    obtain ⟨s1, s2, s3⟩ := split_pair hi
    obtain ⟨g1, g2⟩ := foldl_ppgPut_get hr hdet h0 s1 s2 d
    rw [s3] at g1 g2
    have he : (acts.foldl (ppgPut d) (List.replicate (d * d) d)).getD i d =
        (acts.foldl (ppgPut d) (List.replicate (d * d) d))[i] := by
      simp [List.getD_eq_getElem?_getD, h2, hi]
    rw [← he]
    by_cases hex : ∃ c', (i / d, i % d, c') ∈ acts
    · obtain ⟨c', hc'⟩ := hex
      rw [g1 c' hc']
      exact (hr _ hc').2.2.le
    · push Not at hex
      rw [g2 hex, hrep _ hi]
  · intro t
    rw [mem_actions]
    constructor
    · rintro ⟨ha, hb, hc, h⟩
      exact (hval _ _ ha hb _ hc).1 h
    · intro ht
      obtain ⟨ha, hb, hc⟩ := hr t ht
      exact ⟨ha, hb, hc, (hval _ _ ha hb _ hc).2 ht⟩

/-- **C27, propagation function to actions and back.** Every propagation function over a domain of
size `1 ≤ d ≤ 255` (values below `d`, or `d` for undefined) is recovered from its action list. -/
theorem C27_ppgfun_round_trip (d : ℕ) (hd : 0 < d) (hd' : d ≤ 255) (ppg : List ℕ)
    (hl : ppg.length = d * d) (hv : ∀ v ∈ ppg, v ≤ d) :
    ∃ acts, actionsOfPpg ppg d = some acts ∧ ppgfunOfActs acts d = some ppg := by
  have hdb : toByte d = d := Nat.mod_eq_of_lt (by omega)
  have h0 : (List.replicate (d * d) d).length = d * d := by simp
  have hr : ∀ t ∈ (pairsUpTo d).flatMap (actAt ppg d), t.1 < d ∧ t.2.1 < d ∧ t.2.2 < d := by
    intro t ht
    obtain ⟨h1, h2, h3, -⟩ := mem_actions.1 ht
    exact ⟨h1, h2, h3⟩
  have hdet : Determ ((pairsUpTo d).flatMap (actAt ppg d)) := by
    intro a b c c' h h'
    obtain ⟨-, -, -, h⟩ := mem_actions.1 h
    obtain ⟨-, -, -, h'⟩ := mem_actions.1 h'
    simp only at h h'
    rw [← h, ← h']
  obtain ⟨h1, h2⟩ := ppgfun_foldlM (by omega : d ≤ 256) hr h0
  refine ⟨_, actionsOfPpg_eq hd (by omega) hl, ?_⟩
  simp only [ppgfunOfActs, hd.ne', if_false, hdb]
  rw [h1]
  congr 1
  refine getD_ext (x := d) h2 hl fun i hi => ?_
  obtain ⟨s1, s2, s3⟩ := split_pair hi
  obtain ⟨g1, g2⟩ := foldl_ppgPut_get hr hdet h0 s1 s2 d
  rw [s3] at g1 g2
  by_cases hc : ppg.getD i d < d
  · exact g1 _ (mem_actions.2 ⟨s1, s2, hc, by simp only; rw [s3]⟩)
  · have hle : ppg.getD i d ≤ d := by
      rw [List.getD_eq_getElem?_getD, List.getElem?_eq_getElem (by omega)]
      exact hv _ (List.getElem_mem _)
    rw [g2]
    · simp only [List.getD_eq_getElem?_getD, List.getElem?_replicate, hi, if_true,
        Option.getD_some]
      simp only [List.getD_eq_getElem?_getD] at hle hc
      omega
    · intro c hcm
      obtain ⟨-, -, h3, h⟩ := mem_actions.1 hcm
      simp only at h h3
      rw [s3] at h
      omega

/-- **C27, action sets.** The action set of a propagation function has exactly the identifiers of its
actions; reading it back gives the same action list, in the same order, and the same propagation
function. -/
theorem C27_actset_round_trip (d : ℕ) (hd : 0 < d) (hd' : d ≤ 255) (ppg : List ℕ)
    (hl : ppg.length = d * d) (hv : ∀ v ∈ ppg, v ≤ d) :
    ∃ bt acts, actsetOfPpg ppg d = some bt ∧ bt.length = d * d * d ∧
      (∀ a b c, a < d → b < d → c < d →
        (bt.getD ((a * d + b) * d + c) false = true ↔ ppg.getD (a * d + b) d = c)) ∧
      actionsOfPpg ppg d = some acts ∧ actionsOfActset bt d = some acts ∧
      ppgfunOfActset bt d = some ppg := by
  have h0 : (List.replicate (d * d * d) false).length = d * d * d := by simp
  set acts := (pairsUpTo d).flatMap (actAt ppg d) with hacts
  have hr : ∀ t ∈ acts, t.1 < d ∧ t.2.1 < d ∧ t.2.2 < d := by
    intro t ht
    obtain ⟨h1, h2, h3, -⟩ := mem_actions.1 ht
    exact ⟨h1, h2, h3⟩
  have e1 := actset_foldl hl (pairsUpTo d) (fun p hp => mem_pairsUpTo.1 hp) _ h0
  rw [← hacts] at e1
  set bt := acts.foldl (fun bt t => bt.set (aid d t) true) (List.replicate (d * d * d) false)
    with hbt
  have hlen : bt.length = d * d * d := by
    have : ∀ (l : List UniAct) (b : List Bool),
        (l.foldl (fun bt t => bt.set (aid d t) true) b).length = b.length := by
      intro l
      induction l with
      | nil => simp
      | cons t l ih => intro b; rw [List.foldl_cons, ih]; simp
    rw [hbt, this, h0]
  have hget : ∀ i < d * d * d, (bt.getD i false = true ↔ i ∈ acts.map (aid d)) := by
    intro i hi
    have := (foldl_set_get (d := d) acts (List.replicate (d * d * d) false) i (by simpa using hi)).1
    rw [← hbt] at this
    rw [this]
    simp [List.getD_eq_getElem?_getD, List.getElem?_replicate, hi]
  have hidx : bitIndices bt = acts.map (aid d) := by
    have s1 : (bitIndices bt).Pairwise (· < ·) := List.Pairwise.filter _ List.pairwise_lt_range
    have s2 : (acts.map (aid d)).Pairwise (· < ·) := by
      rw [List.pairwise_map]
      refine List.Pairwise.imp_of_mem ?_ (actions_sorted ppg d)
      intro s t hs _ h
      exact aid_mono (hr s hs).2.1 (hr s hs).2.2 h
    refine List.Perm.eq_of_pairwise (le := (· < ·)) (fun a b _ _ h1 h2 => absurd h1 (by omega)) s1 s2
      ((List.perm_ext_iff_of_nodup (s1.imp fun h => by omega) (s2.imp fun h => by omega)).2 fun i => ?_)
    simp only [bitIndices, List.mem_filter, List.mem_range, hlen]
    constructor
    · rintro ⟨hi, h⟩; exact (hget i hi).1 h
    · intro h
      have hi : i < d * d * d := by
        obtain ⟨t, ht, rfl⟩ := List.mem_map.1 h
        exact aid_lt (hr t ht).1 (hr t ht).2.1 (hr t ht).2.2
      exact ⟨hi, (hget i hi).2 h⟩
  have hback : (bitIndices bt).map (fun i => actOfId i d) = acts := by
    rw [hidx, List.map_map]
    conv_rhs => rw [← List.map_id acts]
    refine List.map_congr_left fun t ht => ?_
    obtain ⟨t1, t2, t3⟩ := hr t ht
    obtain ⟨id, e, -, e'⟩ := (C23_action_ids d hd (by omega)).1 t.1 t.2.1 t.2.2 t1 t2 t3
    have : id = aid d t := by
      simp only [idOf3, t1, t2, t3, and_self, if_true, Option.some.injEq] at e
      exact e.symm
    rw [this] at e'
    exact e'
  have hap := actionsOfPpg_eq hd (by omega : d ≤ 256) hl
  refine ⟨bt, acts, ?_, hlen, ?_, hap, ?_, ?_⟩
  · simp only [actsetOfPpg, hd.ne', if_false]
    exact e1
  · intro a b c ha hb hc
    have hlt : (a * d + b) * d + c < d * d * d := aid_lt (t := (a, b, c)) ha hb hc
    rw [hget _ hlt]
    constructor
    · intro h
      obtain ⟨t, ht, he⟩ := List.mem_map.1 h
      obtain ⟨t1, t2, t3, t4⟩ := mem_actions.1 ht
      have e1 := (pair_inj t3 hc).1 he
      have e2 := (pair_inj t2 hb).1 e1.1
      rw [← e2.1, ← e2.2, ← e1.2]
      exact t4
    · intro h
      exact List.mem_map.2 ⟨(a, b, c), mem_actions.2 ⟨ha, hb, hc, h⟩, rfl⟩
  · simp only [actionsOfActset, hd.ne', if_false]
    rw [hback]
  · obtain ⟨acts2, e2, e3⟩ := C27_ppgfun_round_trip d hd hd' ppg hl hv
    obtain rfl : acts = acts2 := Option.some.inj (hap.symm.trans e2)
    simp only [ppgfunOfActset, ppgfunOfActs, hd.ne', if_false] at e3 ⊢
    rw [hback]
    exact e3

theorem rootLoop_spec (e sz : ℕ) (he : 0 < e) (d : ℕ) (hsz : sz = d ^ e) :
    ∀ fuel k, k ≤ d → d ≤ k + fuel → rootLoop e sz fuel k = d := by
  intro fuel
  induction fuel with
  | zero => intro k h1 h2; simp only [rootLoop]; omega
  | succ fuel ih =>
    intro k h1 h2
    unfold rootLoop
    by_cases hk : k = d
    · subst hk; simp [hsz]
    · have : k ^ e < sz := by rw [hsz]; exact Nat.pow_lt_pow_left (by omega) he.ne'
      rw [if_pos this]
      exact ih _ (by omega) (by omega)

/-- **C27, inferred domain size.** Called without a domain size (argument 0), the conversions infer
it correctly from the length of a propagation function or of an action set. -/
theorem C27_inferred_domain (d : ℕ) (hd : 0 < d) (hd' : d ≤ 255) :
    (∀ ppg : List ℕ, ppg.length = d * d → actionsOfPpg ppg 0 = actionsOfPpg ppg d ∧
      actsetOfPpg ppg 0 = actsetOfPpg ppg d) ∧
    (∀ bt : List Bool, bt.length = d * d * d → actionsOfActset bt 0 = actionsOfActset bt d ∧
      ppgfunOfActset bt 0 = ppgfunOfActset bt d) := by
  have hdb : toByte d = d := Nat.mod_eq_of_lt (by omega)
  have h2 : domszOfPpg (d * d) = d := by
    have : rootLoop 2 (d * d) (d * d + 1) 0 = d :=
      rootLoop_spec 2 _ (by omega) d (by ring) _ _ (by omega) (by nlinarith)
    simp only [domszOfPpg, this, hdb]
    rw [if_neg]; simp [pow_two]
  have h3 : domszOfActset (d * d * d) = d := by
    have : rootLoop 3 (d * d * d) (d * d * d + 1) 0 = d := by
      refine rootLoop_spec 3 _ (by omega) d (by ring) _ _ (by omega) ?_
      have : d ≤ d * d := Nat.le_mul_of_pos_left d hd
      have : d * d ≤ d * d * d := Nat.le_mul_of_pos_right _ hd
      omega
    simp only [domszOfActset, this, hdb]
    rw [if_neg]; simp [pow_succ]
  constructor
  · intro ppg hl
    simp [actionsOfPpg, actsetOfPpg, hl, h2, hd.ne']
  · intro bt hl
    simp [actionsOfActset, ppgfunOfActset, hl, h3, hd.ne']

/-- A deterministic protocol used in the examples. -/
def sampleActs : List UniAct := [(2, 0, 1), (0, 1, 2), (1, 1, 0), (0, 1, 2)]

example : ppgfunOfActs sampleActs 3 = some [3, 2, 3, 3, 0, 3, 1, 3, 3] ∧
    actionsOfPpg [3, 2, 3, 3, 0, 3, 1, 3, 3] 3 = some [(0, 1, 2), (1, 1, 0), (2, 0, 1)] := by
  decide +kernel

/-- Without determinism the round trip loses actions: the last one with a guard wins. -/
theorem C27_nondeterministic_limit :
    ppgfunOfActs [(0, 1, 0), (0, 1, 2)] 3 = ppgfunOfActs [(0, 1, 2)] 3 := by decide +kernel

/-- **C27, size inferred from actions.** The size inferred from an action list is the largest value
mentioned plus one; so when the largest value of the intended domain is mentioned, the propagation
function is that of the intended domain. -/
theorem C27_inferred_from_actions (d : ℕ) (hd : d ≤ 255) (acts : List UniAct)
    (hlt : ∀ a ∈ acts, a.1 < d ∧ a.2.1 < d ∧ a.2.2 < d)
    (hmax : ∃ a ∈ acts, a.1 + 1 = d ∨ a.2.1 + 1 = d ∨ a.2.2 + 1 = d) :
    ppgfunOfActs acts 0 = ppgfunOfActs acts d := by
  have key : ∀ (acts : List UniAct) (x : ℕ), x ≤ d →
      (∀ a ∈ acts, a.1 < d ∧ a.2.1 < d ∧ a.2.2 < d) →
      (x = d ∨ ∃ a ∈ acts, a.1 + 1 = d ∨ a.2.1 + 1 = d ∨ a.2.2 + 1 = d) →
      acts.foldl (fun domsz act => [act.1, act.2.1, act.2.2].foldl
        (fun domsz x => if domsz < x + 1 then x + 1 else domsz) domsz) x = d := by
    intro acts
    induction acts with
    | nil => intro x _ _ h; simpa using h
    | cons a l ih =>
      intro x hx hl h
      obtain ⟨h1, h2, h3⟩ := hl a (by simp)
      rw [List.foldl_cons]
      have hm : ([a.1, a.2.1, a.2.2].foldl
          (fun domsz x => if domsz < x + 1 then x + 1 else domsz) x) =
          max (max (max x (a.1 + 1)) (a.2.1 + 1)) (a.2.2 + 1) := by
        simp only [List.foldl_cons, List.foldl_nil]
        have e : ∀ p q : ℕ, (if p < q then q else p) = max p q := by
          intro p q; split <;> omega
        simp only [e]
      rw [hm]
      refine ih _ (by omega) (fun b hb => hl b (by simp [hb])) ?_
      rcases h with h | ⟨b, hb, h⟩
      · left; omega
      · rcases List.mem_cons.1 hb with rfl | hb
        · left; omega
        · exact Or.inr ⟨b, hb, h⟩
  have hd0 : d ≠ 0 := by
    obtain ⟨a, ha, -⟩ := hmax
    have := hlt a ha
    omega
  have : domszOfActs acts = d := by
    unfold domszOfActs
    rw [key acts 0 (by omega) hlt (Or.inr hmax)]
    exact Nat.mod_eq_of_lt (by omega)
  unfold ppgfunOfActs
  simp only [this, if_true, hd0, if_false]

example : ppgfunOfActs [(0, 1, 2), (1, 0, 1)] 0 = some [3, 2, 3, 1, 3, 3, 3, 3, 3] := by
  decide +kernel

/-- When the largest value is not mentioned the inferred size is too small. -/
theorem C27_inferred_from_actions_limit :
    ppgfunOfActs [(0, 1, 0)] 0 ≠ ppgfunOfActs [(0, 1, 0)] 3 := by decide +kernel

end Verif.Props
