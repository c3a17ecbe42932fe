import Verif.Proofs.Action
import Verif.Props.IntFmla

/-!
The meaning of a written action that is read back.
-/

namespace Verif.Proofs

open Verif.Model Verif.Spec Verif.Props

variable {n : ℕ} {dom : Fin n → ℕ}

/-- The states in which a formula holds. -/
def EvalsTo (env : EvalEnv n dom) (ρ : IMap) (e : Ex) (S : FSt n dom → Prop) : Prop :=
  ∃ pf, AtLast (fun k => evalP env k ρ e) (pf, ρ) ∧ ∀ s, s ∈ pf ↔ S s

theorem evals_and {env : EvalEnv n dom} {ρ : IMap} {e e' : Ex} {S S' : FSt n dom → Prop}
    (h : EvalsTo env ρ e S) (h' : EvalsTo env ρ e' S') :
    EvalsTo env ρ (.and e e') fun s => S s ∧ S' s := by
  obtain ⟨pf, ⟨K, hK⟩, hp⟩ := h
  obtain ⟨pf', ⟨K', hK'⟩, hp'⟩ := h'
  by_cases he : pf = ∅
  · refine ⟨pf, ⟨K + 1, fun k hk => ?_⟩, fun s => ?_⟩
    · obtain ⟨j, rfl⟩ : ∃ j, k = j + 1 := ⟨k - 1, by omega⟩
      simp only [evalP, hK j (by omega), if_pos he]
    · show s ∈ pf ↔ S s ∧ S' s
      rw [← hp, he]; simp
  · refine ⟨pf ∩ pf', ⟨K + K' + 1, fun k hk => ?_⟩, fun s => by rw [Finset.mem_inter, hp, hp']⟩
    obtain ⟨j, rfl⟩ : ∃ j, k = j + 1 := ⟨k - 1, by omega⟩
    simp only [evalP, hK j (by omega), hK' j (by omega), if_neg he]

theorem evals_conj {env : EvalEnv n dom} {ρ : IMap} {P : Ex → FSt n dom → Prop} :
    ∀ (l : List Ex) (e : Ex) (S : FSt n dom → Prop), EvalsTo env ρ e S →
      (∀ x ∈ l, EvalsTo env ρ x (P x)) → EvalsTo env ρ (conjEx e l) fun s => S s ∧ ∀ x ∈ l, P x s
  | [], e, S, h, _ => by simpa [conjEx] using h
  | x :: l, e, S, h, hl => by
    have := evals_conj l (.and e x) _ (evals_and h (hl x (by simp))) fun y hy => hl y (by simp [hy])
    simpa [conjEx, and_assoc] using this

theorem evals_eq (s0 : FSt n dom) {c : RdPc n dom} {ρ : IMap} {ref : ℕ → String × Ex} (hr : Resolves c ρ ref)
    {r : ℕ} {v : Fin n} (hv : c.pc.rvbls[r]? = some v) (g : ℕ) :
    EvalsTo c.env ρ (.cmp false true false (refEx ref r) (.num g)) fun s => (s v).val = g := by
  obtain ⟨f, m, membs, K, h1, h2, h3, h4, h5, h6⟩ := hr r v hv
  obtain ⟨pf, hp1, hp2⟩ := C39_cmp s0 false true false (IntFmla.ofVbl dom v) (.ofInt g) _ _
    (C39_leaves (dom := dom) v 0).1 (C39_leaves (dom := dom) v g).2
  refine ⟨pf, ⟨K + 2, fun k hk => ?_⟩, fun s => by rw [hp2]; simp⟩
  obtain ⟨j, rfl⟩ : ∃ j, k = j + 2 := ⟨k - 2, by omega⟩
  have ha : evalI c.env (j + 1) ρ (refEx ref r) = some (.ofVbl dom v, ρ) := by
    simp only [refEx, evalI, h1 j (by omega), h2, h3, h4, h5, h6, if_true]
  simp only [evalP, ha, hp1]
  simp only [evalI]
  rw [hp1]

theorem lookup_ref {c : RdPc n dom} {ρ : IMap} {ref : ℕ → String × Ex} (hr : Resolves c ρ ref)
    {r : ℕ} {v : Fin n} (hv : c.pc.rvbls[r]? = some v) :
    AtLast (fun k => lookupVbl c.env k ρ (ref r).1 (ref r).2) (v, ρ) := by
  obtain ⟨f, m, membs, K, h1, h2, h3, h4, h5, h6⟩ := hr r v hv
  exact ⟨K, fun k hk => by simp only [lookupVbl, h1 k hk, h2, h4, h5, h6, if_true]⟩

theorem mapM_imgEq (s0 : FSt n dom) (v : Fin n) (a : ℕ) :
    ∃ g, (IntFmla.ofInt (a : ℤ) : IntFmla n).binop .mod (.ofInt (dom v)) = some g ∧
      AtLast (fun k => (IntFmla.ofVbl dom v).imgEq dom k g)
        (Finset.univ.filter fun e : FSt n dom × FSt n dom => (e.2 v).val = a % dom v) := by
  have hd : 0 < dom v := by have := (s0 v).isLt; omega
  obtain ⟨h1, h2⟩ := C39_binop s0 .mod (IntFmla.ofInt (a : ℤ)) (.ofInt (dom v)) _ _
    (C39_leaves (dom := dom) v a).2 (C39_leaves (dom := dom) v (dom v)).2
  cases hb : (IntFmla.ofInt (a : ℤ) : IntFmla n).binop .mod (.ofInt (dom v)) with
  | none =>
    obtain ⟨s, hs⟩ := h2.1 hb
    refine absurd ⟨(a : ℤ) % dom v, ?_⟩ hs
    exact ⟨by omega, Int.emod_nonneg _ (by omega), Int.emod_lt_of_pos _ (by omega), Int.dvd_self_sub_emod⟩
  | some g =>
    obtain ⟨h, hh1, hh2⟩ := h1 g hb
    refine ⟨g, rfl, (IntFmla.ofVbl dom v).stateMap.length + g.stateMap.length + 1, fun k hk => ?_⟩
    obtain ⟨r, hr1, hr2⟩ := C39_img_eq s0 (IntFmla.ofVbl dom v) g _ _ (C39_leaves (dom := dom) v 0).1 hh1 k (by omega)
    simp only
    rw [hr1]
    congr 1
    ext ⟨s, t⟩
    rw [hr2, Finset.mem_filter]
    obtain ⟨_, q1, q2, q3⟩ := hh2 s
    have : h s = (a : ℤ) % dom v := by
      rw [Int.emod_eq_emod_iff_emod_sub_eq_zero.2 (Int.emod_eq_zero_of_dvd q3), Int.emod_eq_of_lt q1 q2]
    rw [this]
    simp only [Finset.mem_univ, true_and]
    omega

theorem wvbls_get {V : Type} {dom : V → ℕ} {pc : SPc V dom} (hlen : pc.rvbls.length = pc.spec.access.length)
    (j : ℕ) : pc.wvbls[j]? = (pc.spec.wmap[j]?).bind fun r => pc.rvbls[r]? := by
  have hall : ∀ r ∈ pc.spec.wmap, (pc.rvbls[r]?).isSome := by
    intro r hr
    obtain ⟨a, h1, _⟩ := mem_wmap_iff.1 hr
    have := (List.getElem?_eq_some_iff.1 h1).1
    rw [List.getElem?_eq_getElem (by omega)]; rfl
  unfold SPc.wvbls
  generalize pc.spec.wmap = l at hall
  induction l generalizing j with
  | nil => simp
  | cons r l ih =>
    obtain ⟨v, hv⟩ := Option.isSome_iff_exists.1 (hall r (by simp))
    rw [List.filterMap_cons, hv]
    cases j with
    | zero => simp [hv]
    | succ j => simpa using ih j (fun x hx => hall x (by simp [hx]))

theorem findIdx_nodup {α : Type} [DecidableEq α] {l : List α} (h : l.Nodup) {j : ℕ} {v : α}
    (hj : l[j]? = some v) : l.findIdx? (· = v) = some j := by
  obtain ⟨hlt, he⟩ := List.getElem?_eq_some_iff.1 hj
  rw [List.findIdx?_eq_some_iff_getElem]
  refine ⟨hlt, by simp [he], fun i hi => ?_⟩
  simp only [decide_eq_true_eq]
  intro hii
  have := (List.nodup_iff_injective_get.1 h) (a₁ := ⟨i, by omega⟩) (a₂ := ⟨j, hlt⟩) (by simp [hii, he])
  simp at this
  omega

/-- The pairs of states in which the listed variables have the listed values afterwards. -/
def SetTo (c : RdPc n dom) (l : List (ℕ × ℕ × ℕ)) (e : FSt n dom × FSt n dom) : Prop :=
  ∀ m ∈ l, ∀ v, c.pc.rvbls[m.2.1]? = some v → (e.2 v).val = m.2.2 % dom v

/-- Some of the listed variables is only written. -/
def anyWo (c : RdPc n dom) (l : List (ℕ × ℕ × ℕ)) : Bool :=
  l.any fun m => ((c.pc.spec.access[m.2.1]?).map Access.syntWriteonlyCk).getD false

theorem asg_loop (s0 : FSt n dom) {c : RdPc n dom} {ρ : IMap} {ref : ℕ → String × Ex} (hr : Resolves c ρ ref)
    (hok : PcOk c.pc) (hnd : c.pc.wvbls.Nodup) :
    ∀ (l : List (ℕ × ℕ × ℕ)), (∀ m ∈ l, c.pc.spec.wmap[m.1]? = some m.2.1) →
      ∀ st : AsgSt n dom, st.ρ = ρ → st.allWild = false →
      ∃ st', AtLast (fun k => asgLoop c k (asgsOf c.pc.spec ref l) st) st' ∧ st'.allWild = false ∧
        st'.autoIden = st.autoIden ∧ st'.rmLoops = (st.rmLoops || anyWo c l) ∧
        (∀ j, j ∈ st'.assigned ↔ j ∈ st.assigned ∨ ∃ m ∈ l, m.1 = j) ∧
        ∀ e, e ∈ st'.xn ↔ e ∈ st.xn ∧ SetTo c l e
  | [], _, st, hρ, hw => by
    refine ⟨st, ⟨0, fun k _ => rfl⟩, hw, rfl, by simp [anyWo], by simp, by simp [SetTo]⟩
  | m :: l, hl, st, hρ, hw => by
    have hm := hl m (by simp)
    obtain ⟨acc, h1, h2⟩ := mem_wmap_iff.1 (List.mem_of_getElem? hm)
    have hlt := (List.getElem?_eq_some_iff.1 h1).1
    obtain ⟨v, hv⟩ : ∃ v, c.pc.rvbls[m.2.1]? = some v :=
      ⟨_, List.getElem?_eq_getElem (by rw [hok.len]; exact hlt)⟩
    have hnr : acc.randomWriteCk = false := hok.norand acc (List.mem_of_getElem? h1)
    obtain ⟨K1, hK1⟩ := lookup_ref hr hv
    obtain ⟨g, hg1, K2, hK2⟩ := mapM_imgEq s0 v m.2.2
    have hwv : c.pc.wvbls[m.1]? = some v := by rw [wvbls_get hok.len, hm]; exact hv
    have hfi := findIdx_nodup hnd hwv
    let st1 : AsgSt n dom := { markW c st m.1 ρ with
      xn := st.xn ∩ Finset.univ.filter fun e : FSt n dom × FSt n dom => (e.2 v).val = m.2.2 % dom v }
    have hstep : ∀ k ≥ K1 + K2 + 1, asgStep c k st (.set (refEx ref m.2.1) (.num m.2.2)) = some st1 := by
      intro k hk
      have hf : findW c k st.ρ (refEx ref m.2.1) = some (v, m.1, ρ) := by
        rw [hρ]
        simp only [findW, refEx, hK1 k (by omega), hfi, Option.map_some]
      have hn : evalI c.env k ρ (.num m.2.2) = some (.ofInt m.2.2, ρ) := by
        obtain ⟨j, rfl⟩ : ∃ j, k = j + 1 := ⟨k - 1, by omega⟩
        simp only [evalI]
      have haw : ¬ (markW c st m.1 ρ).allWild = true := by
        show ¬ st.allWild = true
        rw [hw]; simp
      simp only [asgStep, hf, hn]
      rw [if_neg haw]
      simp only [hg1, hK2 k (by omega)]
      rfl
    obtain ⟨st', ⟨K, hK⟩, q1, q2, q3, q4, q5⟩ := asg_loop s0 hr hok hnd l (fun x hx => hl x (by simp [hx])) st1 rfl hw
    refine ⟨st', ⟨K + K1 + K2 + 1, fun k hk => ?_⟩, q1, q2, ?_, ?_, ?_⟩
    · have : asgsOf c.pc.spec ref (m :: l) = .set (refEx ref m.2.1) (.num m.2.2) :: asgsOf c.pc.spec ref l := by
        simp [asgsOf, h1, hnr]
      simp only [this, asgLoop, hstep k (by omega), hK k (by omega)]
    · rw [q3]
      simp [st1, markW, hm, h1, anyWo, Bool.or_assoc]
    · intro j
      rw [q4]
      simp only [st1, markW, List.mem_cons]
      constructor
      · rintro ((rfl | h) | ⟨x, hx, rfl⟩)
        · exact Or.inr ⟨m, by simp, rfl⟩
        · exact Or.inl h
        · exact Or.inr ⟨x, by simp [hx], rfl⟩
      · rintro (h | ⟨x, rfl | hx, rfl⟩)
        · exact Or.inl (Or.inr h)
        · exact Or.inl (Or.inl rfl)
        · exact Or.inr ⟨x, hx, rfl⟩
    · intro e
      rw [q5]
      simp only [st1, Finset.mem_inter, Finset.mem_filter, Finset.mem_univ, true_and, SetTo]
      constructor
      · rintro ⟨⟨a1, a2⟩, a3⟩
        refine ⟨a1, fun x hx w hw' => ?_⟩
        rcases List.mem_cons.1 hx with rfl | hx
        · rw [hv] at hw'; cases hw'; exact a2
        · exact a3 x hx w hw'
      · rintro ⟨a1, a2⟩
        exact ⟨⟨a1, a2 m (by simp) v hv⟩, fun x hx => a2 x (by simp [hx])⟩

/-- What reading the tree of an action gives. -/
theorem parse_tree (s0 : FSt n dom) {c : RdPc n dom} {ρ : IMap} {ref : ℕ → String × Ex} (hr : Resolves c ρ ref)
    (hok : PcOk c.pc) (hnd : c.pc.wvbls.Nodup) (hrand : ∀ v ∈ c.pc.rvbls, c.random v = false)
    {vals : List ℕ} (hv : List.Forall₂ (· < ·) vals c.pc.spec.doms) {T : ActTree} {l : List (ℕ × ℕ × ℕ)}
    {e : Ex} {gs : List Ex} (hT : T.actto = false) (hg : guardEqs c.pc.spec ref vals = e :: gs)
    (hTg : T.guard = conjEx e gs) (hl : ∀ m ∈ l, c.pc.spec.wmap[m.1]? = some m.2.1)
    (hTa : T.asgs = asgsOf c.pc.spec ref l) :
    ∃ P, AtLast (fun k => parseAction c k ρ T true) P ∧ ∀ s t, (s, t) ∈ P ↔
      (∀ g ∈ (actOf c.pc vals).guards, (s g.1).val = g.2) ∧ SetTo c l (s, t) ∧
      (∀ j v, c.pc.wvbls[j]? = some v → (∀ m ∈ l, m.1 ≠ j) → t v = s v) ∧
      (anyWo c l = true → ∃ v ∈ c.pc.wvbls, t v ≠ s v) := by
  have heq : ∀ x ∈ guardEqs c.pc.spec ref vals, ∃ r acc v g, c.pc.rvbls[r]? = some v ∧
      c.pc.spec.access[r]? = some acc ∧ acc.syntReadCk = true ∧ vals[r]? = some g ∧
      x = .cmp false true false (refEx ref r) (.num g) := by
    intro x hx
    simp only [guardEqs, List.mem_filterMap, Option.bind_eq_some_iff] at hx
    obtain ⟨r, hrr, acc, h1, g, h2, hx⟩ := hx
    split_ifs at hx with h3
    obtain ⟨v, _, _, h4, _⟩ := rfacts hok hv (List.mem_range.1 hrr)
    cases hx
    exact ⟨r, acc, v, g, h4, h1, h3, h2, rfl⟩
  let P : Ex → FSt n dom → Prop := fun x s => ∀ r v g, c.pc.rvbls[r]? = some v →
    x = .cmp false true false (refEx ref r) (.num g) → (s v).val = g
  have hP : ∀ x ∈ guardEqs c.pc.spec ref vals, EvalsTo c.env ρ x (P x) := by
    intro x hx
    obtain ⟨r, acc, v, g, h1, h2, h3, h4, rfl⟩ := heq x hx
    obtain ⟨pf, q1, q2⟩ := evals_eq s0 hr h1 g
    refine ⟨pf, q1, fun s => ?_⟩
    rw [q2]
    constructor
    · intro h r' v' g' hv' he
      simp only [Ex.cmp.injEq, Ex.num.injEq, true_and] at he
      obtain ⟨he1, rfl⟩ := he
      obtain ⟨pf', q1', q2'⟩ := evals_eq s0 hr hv' g
      -- the same reference has one meaning
      obtain ⟨K, hK⟩ := lookup_ref hr h1
      obtain ⟨K', hK'⟩ := lookup_ref hr hv'
      simp only [refEx, Ex.aref.injEq] at he1
      have e1 := hK (K + K') (by omega)
      have e2 := hK' (K + K') (by omega)
      simp only [he1.1, he1.2] at e1
      simp only [e1, Option.some.injEq, Prod.mk.injEq, and_true] at e2
      rw [← e2]; exact h
    · intro h; exact h r v g h1 rfl
  obtain ⟨guard, ⟨K1, hK1⟩, hgm⟩ := evals_conj (P := P) gs e (P e) (hP e (by rw [hg]; simp))
    fun x hx => hP x (by rw [hg]; simp [hx])
  have hguard : ∀ s, s ∈ guard ↔ ∀ g ∈ (actOf c.pc vals).guards, (s g.1).val = g.2 := by
    intro s
    rw [hgm]
    constructor
    · rintro ⟨a1, a2⟩ ⟨v, g⟩ hgd
      obtain ⟨r, acc, h1, h2, h3, h4⟩ := mem_actOf_guards.1 hgd
      have hin : (.cmp false true false (refEx ref r) (.num g) : Ex) ∈ guardEqs c.pc.spec ref vals := by
        simp only [guardEqs, List.mem_filterMap, Option.bind_eq_some_iff]
        exact ⟨r, List.mem_range.2 (List.getElem?_eq_some_iff.1 h2).1, acc, h2, g, h3, by simp [h4]⟩
      rw [hg] at hin
      rcases List.mem_cons.1 hin with h | h
      · exact a1 r v g h1 h.symm
      · exact a2 _ h r v g h1 rfl
    · intro h
      have hall : ∀ x ∈ guardEqs c.pc.spec ref vals, P x s := by
        intro x hx
        obtain ⟨r, acc, v, g, h1, h2, h3, h4, rfl⟩ := heq x hx
        obtain ⟨pf, q1, q2⟩ := hP _ hx
        obtain ⟨pf', q1', q2'⟩ := evals_eq s0 hr h1 g
        have hpp : pf = pf' := by
          obtain ⟨K, hK⟩ := q1
          obtain ⟨K', hK'⟩ := q1'
          have e1 := hK (K + K') (by omega)
          have e2 := hK' (K + K') (by omega)
          simp only at e1 e2
          rw [e1] at e2
          cases e2; rfl
        rw [← q2, hpp, q2']
        exact h (v, g) (mem_actOf_guards.2 ⟨r, acc, h1, h2, h4, h3⟩)
      exact ⟨hall e (by rw [hg]; simp), fun x hx => hall x (by rw [hg]; simp [hx])⟩
  obtain ⟨st', ⟨K2, hK2⟩, q1, q2, q3, q4, q5⟩ := asg_loop s0 hr hok hnd l hl
    ⟨guard ×ˢ Finset.univ, ρ, [], true, false, false⟩ rfl rfl
  have hfold : ∀ (vs : List (Fin n)) xn, (∀ v ∈ vs, c.random v = false) →
      vs.foldl (fun xn v => if c.random v then (guard ×ˢ Finset.univ) ∩ smoothPreV v xn else xn) xn = xn := by
    intro vs
    induction vs with
    | nil => intro xn _; rfl
    | cons v vs ih =>
      intro xn h
      rw [List.foldl_cons, if_neg (by rw [h v (by simp)]; simp)]
      exact ih xn fun w hw => h w (by simp [hw])
  let R : Finset (FSt n dom × FSt n dom) :=
    if st'.rmLoops then idenXn c false st' \ Finset.univ.filter fun p => ∀ v ∈ c.pc.wvbls, p.2 v = p.1 v
    else idenXn c false st'
  refine ⟨R, ⟨K1 + K2, fun k hk => ?_⟩, fun s t => ?_⟩
  · have h1 := hK1 k (by omega)
    have h2 := hK2 k (by omega)
    simp only at h1 h2
    simp only [parseAction, hTg, h1, hTa, h2, hT, hfold _ _ hrand]
    rfl
  · have hid : (s, t) ∈ idenXn c false st' ↔ (s, t) ∈ st'.xn ∧
        ∀ j v, c.pc.wvbls[j]? = some v → (∀ m ∈ l, m.1 ≠ j) → t v = s v := by
      unfold idenXn
      have := mem_foldl_inter_if (fun e : Fin n × ℕ => (st'.autoIden && !(st'.allWild || st'.assigned.contains e.2 ||
          (false && (((c.pc.spec.wmap[e.2]?).bind fun r => c.pc.spec.access[r]?).map
          Access.randomWriteCk).getD false))) = true)
        (fun e : Fin n × ℕ => Finset.univ.filter fun p : FSt n dom × FSt n dom => p.2 e.1 = p.1 e.1)
        c.pc.wvbls.zipIdx st'.xn (s, t)
      rw [this]
      refine and_congr_right fun _ => ?_
      simp only [q1, q2, Bool.false_and, Bool.or_false, Bool.false_or, Bool.true_and, Bool.not_eq_true',
        Finset.mem_filter, Finset.mem_univ, true_and, List.mem_zipIdx_iff_getElem?,
        List.contains_eq_mem, decide_eq_false_iff_not]
      constructor
      · intro h j v hj hm
        refine h (v, j) hj ?_
        rw [q4]
        rintro (hh | ⟨m, hmm, he⟩)
        · simp at hh
        · exact hm m hmm he
      · rintro h ⟨v, j⟩ hj hna
        refine h j v hj fun m hm he => hna ?_
        rw [q4]
        exact Or.inr ⟨m, hm, he⟩
    have hxn : (s, t) ∈ st'.xn ↔ (∀ g ∈ (actOf c.pc vals).guards, (s g.1).val = g.2) ∧ SetTo c l (s, t) := by
      rw [q5, Finset.mem_product, hguard]; simp
    have hrm : st'.rmLoops = anyWo c l := by rw [q3]; simp
    simp only [R, hrm]
    by_cases hw : anyWo c l = true
    · rw [if_pos hw, Finset.mem_sdiff, hid, hxn]
      simp only [Finset.mem_filter, Finset.mem_univ, true_and, hw, forall_const, not_forall, exists_prop]
      tauto
    · rw [if_neg hw, hid, hxn]
      simp only [hw]
      tauto

end Verif.Proofs
