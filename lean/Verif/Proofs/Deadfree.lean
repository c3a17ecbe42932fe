import Verif.Model.Deadfree
import Verif.Spec.Quiet
import Verif.Proofs.Loop
import Verif.Proofs.Torus

/-! Lemmas about the local-deadlock analysis. -/

namespace Verif.Proofs
open Verif.Model Verif.Spec

/-- The triple of a node. -/
def LCNode.tr (n : LCNode) : ℕ × ℕ × ℕ := (n.pd, n.id, n.sc)

/-- `b` may follow `a` in a ring. -/
def Foll (a b : LCNode) : Prop := b.pd = a.id ∧ b.id = a.sc

/-- A closed walk of nodes is a ring. -/
theorem ring_of_walk (m : ℕ) (g : ℕ → LCNode) (he : ∀ i < m, Foll (g i) (g (i + 1)))
    (hc : Foll (g m) (g 0)) :
    ∃ x : ZMod (m + 1) → ℕ, ∀ i : ZMod (m + 1), triple x i = LCNode.tr (g i.val) := by
  have hsucc : ∀ i : ZMod (m + 1), Foll (g i.val) (g (i + 1).val) := by
    intro i
    by_cases hi : i + 1 = 0
    · have : i = -1 := eq_neg_of_add_eq_zero_left hi
      rw [hi, this]
      have h1 : (-1 : ZMod (m + 1)).val = m := by
        rw [ZMod.val_neg_one]
      rw [h1]
      simpa using hc
    · have := zmod_val_pred (i + 1) hi
      rw [add_sub_cancel_right] at this
      rw [← this]
      apply he
      have := ZMod.val_lt (i + 1)
      omega
  refine ⟨fun i => (g i.val).id, fun i => ?_⟩
  have h1 := hsucc (i - 1)
  rw [sub_add_cancel] at h1
  have h2 := hsucc i
  unfold triple LCNode.tr
  simp only [h1.1, h2.2]

/-! ### Enumerating the silent states -/

theorem lcNodes_spec (pick : Finset (ℕ × ℕ × ℕ) → Option (ℕ × ℕ × ℕ)) (legit : ℕ × ℕ × ℕ → Bool)
    (silent : Finset (ℕ × ℕ × ℕ)) (hp : ∀ S ⊆ silent, S.Nonempty → ∃ s ∈ S, pick S = some s)
    (h0 : pick ∅ = none) (fuel : ℕ) (hf : silent.card < fuel) :
    ∃ nodes, loopFuel (lcNodesBody pick legit) fuel (silent, []) = some nodes ∧
      nodes.length = silent.card ∧ ∀ n : LCNode, n ∈ nodes ↔ LCNode.tr n ∈ silent ∧
        n.legit = legit (LCNode.tr n) := by
  refine loopFuel_total
    (fun st : Finset (ℕ × ℕ × ℕ) × List LCNode => st.2.length + st.1.card = silent.card ∧
      st.1 ⊆ silent ∧ ∀ n : LCNode, n ∈ st.2 ↔ (LCNode.tr n ∈ silent ∧ LCNode.tr n ∉ st.1) ∧
        n.legit = legit (LCNode.tr n)) _ (fun st => st.1.card) ?_ ?_ fuel (silent, []) ?_ hf
  · rintro ⟨S, l⟩ b ⟨h1, h2, h3⟩ hb
    unfold lcNodesBody at hb
    simp only at hb h1 h3
    rcases S.eq_empty_or_nonempty with rfl | hS
    · rw [h0] at hb
      simp only [Sum.inl.injEq] at hb
      subst hb
      refine ⟨by simpa using h1, fun n => ?_⟩
      rw [h3]; simp
    · obtain ⟨s, -, e⟩ := hp S h2 hS
      rw [e] at hb; cases hb
  · rintro ⟨S, l⟩ ⟨S', l'⟩ ⟨h1, h2, h3⟩ hb
    unfold lcNodesBody at hb
    simp only at hb h1 h2 h3
    rcases S.eq_empty_or_nonempty with rfl | hS
    · rw [h0] at hb; cases hb
    · obtain ⟨s, hs, e⟩ := hp S h2 hS
      rw [e] at hb
      simp only [Sum.inr.injEq, Prod.mk.injEq] at hb
      obtain ⟨rfl, rfl⟩ := hb
      have hc := Finset.card_erase_of_mem hs
      have hpos := Finset.card_pos.2 hS
      refine ⟨⟨by simp only [List.length_append, List.length_singleton]; omega,
        (Finset.erase_subset _ _).trans h2, fun n => ?_⟩, by simp only; omega⟩
      simp only [List.mem_append, List.mem_singleton, h3, Finset.mem_erase, ne_eq, not_and]
      constructor
      · rintro (⟨⟨a, b⟩, c⟩ | rfl)
        · exact ⟨⟨a, fun _ => b⟩, c⟩
        · exact ⟨⟨h2 hs, fun h => absurd rfl h⟩, rfl⟩
      · rintro ⟨⟨a, b⟩, c⟩
        by_cases hn : LCNode.tr n = s
        · right
          subst hn
          cases n
          simp only [LCNode.tr] at c ⊢
          simp [c]
        · exact .inl ⟨⟨a, b hn⟩, c⟩
  · refine ⟨by simp, Finset.Subset.refl _, fun n => ?_⟩
    constructor
    · intro h; cases h
    · rintro ⟨⟨a, b⟩, -⟩; exact absurd a b

/-! ### One search -/

theorem mem_lcNext {nodes : List LCNode} {a b k : ℕ} :
    k ∈ lcNext nodes a b ↔ ∃ n, nodes[k]? = some n ∧ n.pd = a ∧ n.id = b := by
  unfold lcNext
  rw [List.mem_filter, List.mem_range]
  constructor
  · rintro ⟨h1, h2⟩
    rw [List.getElem?_eq_getElem h1] at h2 ⊢
    exact ⟨_, rfl, by simpa using h2⟩
  · rintro ⟨n, h1, h2⟩
    have : k < nodes.length := (List.getElem?_eq_some_iff.1 h1).1
    refine ⟨this, ?_⟩
    rw [h1]; simpa using h2

/-- Node `b` may follow node `a`, by index. -/
def IFoll (nodes : List LCNode) (a b : ℕ) : Prop :=
  ∃ m n, nodes[a]? = some m ∧ nodes[b]? = some n ∧ Foll m n

/-- A walk of `d` steps. -/
def IWalk (nodes : List LCNode) (a b d : ℕ) : Prop :=
  ∃ f : ℕ → ℕ, f 0 = a ∧ f d = b ∧ ∀ i < d, IFoll nodes (f i) (f (i + 1))

theorem IWalk.snoc {nodes : List LCNode} {a b c d : ℕ} (h : IWalk nodes a b d)
    (hc : IFoll nodes b c) : IWalk nodes a c (d + 1) := by
  obtain ⟨f, h0, hd, hs⟩ := h
  refine ⟨fun i => if i ≤ d then f i else c, by simp [h0], by simp, fun i hi => ?_⟩
  rcases Nat.lt_or_ge i d with h | h
  · simp only [show i ≤ d by omega, show i + 1 ≤ d by omega, if_true]
    exact hs i h
  · have : i = d := by omega
    subst this
    simpa [hd] using hc

theorem lcFor_spec (sidx dist : ℕ) (next : List ℕ) (q : List (ℕ × ℕ)) (vis : Finset ℕ) :
    ∃ add : List ℕ, (lcFor sidx dist next (q, vis)).1 =
        (q ++ add.map (fun k => (k, dist + 1)), vis ∪ add.toFinset) ∧ add.Nodup ∧
      (∀ k ∈ add, k ∈ next ∧ k ∉ vis ∧ k ≠ sidx) ∧
      ((lcFor sidx dist next (q, vis)).2 = true ↔ sidx ∈ next) ∧
      (sidx ∉ next → ∀ k ∈ next, k ∈ vis ∪ add.toFinset) := by
  induction next generalizing q vis with
  | nil => exact ⟨[], by simp [lcFor], by simp, by simp, by simp [lcFor], by simp⟩
  | cons k l ih =>
    unfold lcFor
    by_cases hk : sidx = k
    · rw [if_pos hk]
      exact ⟨[], by simp, by simp, by simp, by simp [hk], by simp [hk]⟩
    · rw [if_neg hk]
      by_cases hv : k ∈ vis
      · simp only [hv, if_true]
        obtain ⟨add, h1, h2, h3, h4, h5⟩ := ih q vis
        refine ⟨add, h1, h2, fun j hj => ⟨List.mem_cons_of_mem _ (h3 j hj).1, (h3 j hj).2⟩, ?_, ?_⟩
        · rw [h4]; simp [hk]
        · intro hs j hj
          rcases List.mem_cons.1 hj with rfl | hj
          · exact Finset.mem_union_left _ hv
          · exact h5 (fun h => hs (List.mem_cons_of_mem _ h)) j hj
      · simp only [hv, if_false]
        obtain ⟨add, h1, h2, h3, h4, h5⟩ := ih (q ++ [(k, dist + 1)]) (insert k vis)
        refine ⟨k :: add, ?_, ?_, ?_, ?_, ?_⟩
        · rw [h1]
          ext1
          · simp
          · simp only [List.toFinset_cons]
            ext j; simp only [Finset.mem_union, Finset.mem_insert]; tauto
        · rw [List.nodup_cons]
          exact ⟨fun h => (h3 k h).2.1 (Finset.mem_insert_self _ _), h2⟩
        · intro j hj
          rcases List.mem_cons.1 hj with rfl | hj
          · exact ⟨by simp, hv, fun h => hk h.symm⟩
          · obtain ⟨a, b, c⟩ := h3 j hj
            exact ⟨List.mem_cons_of_mem _ a, fun h => b (Finset.mem_insert_of_mem h), c⟩
        · rw [h4]; simp [hk]
        · intro hs j hj
          have : k ∈ insert k vis ∪ add.toFinset → k ∈ vis ∪ (k :: add).toFinset := fun _ => by simp
          rcases List.mem_cons.1 hj with rfl | hj
          · simp
          · have := h5 (fun h => hs (List.mem_cons_of_mem _ h)) j hj
            simp only [Finset.mem_union, Finset.mem_insert, List.mem_toFinset, List.mem_cons] at this ⊢
            tauto

/-- The stack: every node but the one at the bottom follows a node below it. -/
inductive TraceOk (s : LCNode) : List LCNode → Prop
  | one : TraceOk s [s]
  | cons {n p l} : p ∈ l → Foll p n → TraceOk s l → TraceOk s (n :: l)

theorem lcBack_spec {s : LCNode} {l : List LCNode} (h : TraceOk s l) (term : LCNode)
    (ht : ∃ p ∈ l, Foll p term) :
    ∃ c, lcBack term l = c ++ [s] ∧ List.IsChain (fun a b => Foll b a) (term :: (c ++ [s])) := by
  induction h generalizing term with
  | one =>
    obtain ⟨p, hp, hf⟩ := ht
    simp only [List.mem_singleton] at hp
    subst hp
    refine ⟨[], ?_, by simpa using hf⟩
    unfold lcBack
    rw [if_pos ⟨hf.1, hf.2⟩]
    rfl
  | @cons n p l hp hpn hl ih =>
    unfold lcBack
    by_cases hc : term.pd = n.id ∧ term.id = n.sc
    · rw [if_pos hc]
      obtain ⟨c, h1, h2⟩ := ih n ⟨p, hp, hpn⟩
      refine ⟨n :: c, by rw [h1]; rfl, ?_⟩
      rw [List.cons_append, List.isChain_cons_cons]
      exact ⟨hc, h2⟩
    · rw [if_neg hc]
      obtain ⟨q, hq, hf⟩ := ht
      rcases List.mem_cons.1 hq with rfl | hq
      · exact absurd hf hc
      · exact ih term ⟨q, hq, hf⟩

theorem mem_lcBack {term : LCNode} {l : List LCNode} {n : LCNode} (h : n ∈ lcBack term l) : n ∈ l := by
  induction l generalizing term with
  | nil => simp [lcBack] at h
  | cons m l ih =>
    unfold lcBack at h
    split at h
    · rcases List.mem_cons.1 h with rfl | h
      · simp
      · exact List.mem_cons_of_mem _ (ih h)
    · exact List.mem_cons_of_mem _ (ih h)

/-- A round, by cases. -/
theorem lcBody_cases {nodes : List LCNode} {sidx : ℕ} {snode : LCNode}
    (hs : nodes[sidx]? = some snode) (st : LCState) {t dist : ℕ} {q : List (ℕ × ℕ)}
    (hf : st.frontier = (t, dist) :: q) {tnode : LCNode} (ht : nodes[t]? = some tnode) :
    ∃ add : List ℕ, add.Nodup ∧
      (∀ k ∈ add, IFoll nodes t k ∧ k < nodes.length ∧ k ∉ st.visited ∧ k ≠ sidx) ∧
      ((IFoll nodes t sidx ∧
        ((lcBack snode (tnode :: st.trace)).any (·.legit) = true ∧
          lcBody nodes sidx st = .inl (some (st.out ++
            [.ring (lcBack snode (tnode :: st.trace)).reverse] ++ [.deadlock (dist + 1)])) ∨
         (lcBack snode (tnode :: st.trace)).any (·.legit) = false ∧
          lcBody nodes sidx st = .inr ⟨q ++ add.map (fun k => (k, dist + 1)),
            st.visited ∪ add.toFinset, [],
            st.out ++ [.ring (lcBack snode (tnode :: st.trace)).reverse]⟩)) ∨
       (¬ IFoll nodes t sidx ∧ (∀ k, IFoll nodes t k → k ∈ st.visited ∪ add.toFinset) ∧
        ∃ trace, (trace = tnode :: st.trace ∨ trace = st.trace ∧ ∀ k, ¬ IFoll nodes t k) ∧
          lcBody nodes sidx st = .inr ⟨q ++ add.map (fun k => (k, dist + 1)),
            st.visited ∪ add.toFinset, trace, st.out⟩)) := by
  have hmem : ∀ k, k ∈ lcNext nodes tnode.id tnode.sc ↔ IFoll nodes t k := by
    intro k
    rw [mem_lcNext]
    constructor
    · rintro ⟨n, h1, h2⟩; exact ⟨tnode, n, ht, h1, h2⟩
    · rintro ⟨m, n, h1, h2, h3⟩
      rw [ht, Option.some.injEq] at h1
      subst h1
      exact ⟨n, h2, h3⟩
  obtain ⟨add, a1, a2, a3, a4, a5⟩ := lcFor_spec sidx dist (lcNext nodes tnode.id tnode.sc) q
    st.visited
  refine ⟨add, a2, fun k hk => ?_, ?_⟩
  · obtain ⟨b1, b2, b3⟩ := a3 k hk
    obtain ⟨n, hn, -⟩ := mem_lcNext.1 b1
    exact ⟨(hmem k).1 b1, (List.getElem?_eq_some_iff.1 hn).1, b2, b3⟩
  · by_cases hc : sidx ∈ lcNext nodes tnode.id tnode.sc
    · left
      refine ⟨(hmem _).1 hc, ?_⟩
      have hne : (lcNext nodes tnode.id tnode.sc).length ≠ 0 := fun h => by
        rw [List.length_eq_zero_iff] at h; rw [h] at hc; cases hc
      have hbody : lcBody nodes sidx st =
          if (lcBack snode (tnode :: st.trace)).any (·.legit) then
            .inl (some (st.out ++ [.ring (lcBack snode (tnode :: st.trace)).reverse] ++
              [.deadlock (dist + 1)]))
          else .inr ⟨q ++ add.map (fun k => (k, dist + 1)), st.visited ∪ add.toFinset, [],
            st.out ++ [.ring (lcBack snode (tnode :: st.trace)).reverse]⟩ := by
        unfold lcBody
        rw [hf]
        simp only [ht, hs]
        simp only [a1, a4.2 hc, if_true, if_pos hne]
      rw [hbody]
      by_cases hl : (lcBack snode (tnode :: st.trace)).any (·.legit)
      · exact .inl ⟨hl, by rw [if_pos hl]⟩
      · exact .inr ⟨by simpa using hl, by rw [if_neg hl]⟩
    · right
      refine ⟨fun h => hc ((hmem _).2 h), fun k hk => a5 hc k ((hmem k).2 hk), ?_⟩
      have hr : (lcFor sidx dist (lcNext nodes tnode.id tnode.sc) (q, st.visited)).2 = false := by
        by_contra h; exact hc (a4.1 (by simpa using h))
      refine ⟨if (lcNext nodes tnode.id tnode.sc).length ≠ 0 then tnode :: st.trace else st.trace,
        ?_, ?_⟩
      · by_cases hne : (lcNext nodes tnode.id tnode.sc).length ≠ 0
        · rw [if_pos hne]; exact .inl rfl
        · rw [if_neg hne]
          push Not at hne
          rw [List.length_eq_zero_iff] at hne
          refine .inr ⟨rfl, fun k hk => ?_⟩
          have := (hmem k).2 hk
          rw [hne] at this; cases this
      · unfold lcBody
        rw [hf]
        simp only [ht, hs]
        simp only [a1, hr]
        rfl

/-- Node `sidx` is on a closed walk. -/
def OnLoop (nodes : List LCNode) (sidx : ℕ) : Prop :=
  ∃ t d, IWalk nodes sidx t d ∧ IFoll nodes t sidx

/-- A closed walk through `s` (backwards) of illegitimate nodes. -/
def AllIll (nodes : List LCNode) (s : LCNode) : Prop :=
  ∃ c, List.IsChain (fun a b => Foll b a) (s :: (c ++ [s])) ∧
    ∀ n ∈ c ++ [s], n ∈ nodes ∧ n.legit = false

structure LCInv (nodes : List LCNode) (sidx : ℕ) (snode : LCNode) (st : LCState) : Prop where
  walk : ∀ p ∈ st.frontier, p.1 < nodes.length ∧ IWalk nodes sidx p.1 p.2
  vis : st.visited ⊆ Finset.range nodes.length
  out : ∀ e ∈ st.out, (∃ l, e = .ring l) ∧ OnLoop nodes sidx
  done : st.out = [] → ∃ D : Set ℕ,
    (∀ k, k ∈ st.visited ∨ k = sidx → k ∈ D ∨ ∃ d, (k, d) ∈ st.frontier) ∧
    ∀ k ∈ D, ¬ IFoll nodes k sidx ∧ ∀ l, IFoll nodes k l → l ∈ st.visited
  trace : st.out = [] → (st.trace = [] ∧ st.frontier.length ≤ 1 ∧ ∀ p ∈ st.frontier, p.1 = sidx) ∨
    (TraceOk snode st.trace ∧ (∀ n ∈ st.trace, n ∈ nodes) ∧
      ∀ p ∈ st.frontier, ∃ m ∈ st.trace, ∃ n, nodes[p.1]? = some n ∧ Foll m n)
  ill : st.out ≠ [] → AllIll nodes snode

/-- What the messages of one search mean. -/
def LCPost (nodes : List LCNode) (sidx : ℕ) (snode : LCNode) (r : Option (List LCEvent)) : Prop :=
  ∃ out, r = some out ∧
    (∀ N, .deadlock N ∈ out → ∃ t d, N = d + 1 ∧ IWalk nodes sidx t d ∧ IFoll nodes t sidx) ∧
    ((∃ l, .ring l ∈ out) ↔ OnLoop nodes sidx) ∧
    (OnLoop nodes sidx → (∃ N, .deadlock N ∈ out) ∨ AllIll nodes snode)

theorem lc_search {nodes : List LCNode} {sidx : ℕ} {snode : LCNode}
    (hs : nodes[sidx]? = some snode) {fuel : ℕ} (hfuel : nodes.length + 1 < fuel) :
    ∃ r, loopFuel (lcBody nodes sidx) fuel ⟨[(sidx, 0)], ∅, [], []⟩ = some r ∧
      LCPost nodes sidx snode r := by
  have hslt : sidx < nodes.length := (List.getElem?_eq_some_iff.1 hs).1
  refine loopFuel_total (LCInv nodes sidx snode) _
    (fun st => st.frontier.length + (nodes.length - st.visited.card)) ?_ ?_ fuel _ ?_ ?_
  · intro st r hI hb
    cases hf : st.frontier with
    | nil =>
      unfold lcBody at hb
      rw [hf] at hb
      simp only [Sum.inl.injEq] at hb
      subst hb
      have key : OnLoop nodes sidx → st.out ≠ [] := by
        rintro ⟨t, d, ⟨f, f0, fd, fs⟩, hts⟩ ho
        obtain ⟨D, h1, h2⟩ := hI.done ho
        have hD : ∀ i ≤ d, f i ∈ D := by
          intro i
          induction i with
          | zero =>
            intro _
            rw [f0]
            rcases h1 sidx (.inr rfl) with h | ⟨d, h⟩
            · exact h
            · rw [hf] at h; cases h
          | succ i ih =>
            intro hi
            have := (h2 _ (ih (by omega))).2 _ (fs i (by omega))
            rcases h1 _ (.inl this) with h | ⟨d, h⟩
            · exact h
            · rw [hf] at h; cases h
        have := hD d le_rfl
        rw [fd] at this
        exact (h2 t this).1 hts
      refine ⟨st.out, rfl, fun N hN => ?_, ⟨?_, ?_⟩, fun h => .inr (hI.ill (key h))⟩
      · obtain ⟨⟨l, hl⟩, -⟩ := hI.out _ hN
        cases hl
      · rintro ⟨l, hl⟩; exact (hI.out _ hl).2
      · intro h
        obtain ⟨e, l, he⟩ : ∃ e l, st.out = e :: l := by
          cases ho : st.out with
          | nil => exact absurd ho (key h)
          | cons e l => exact ⟨e, l, rfl⟩
        obtain ⟨⟨l', hl'⟩, -⟩ := hI.out e (by simp [he])
        exact ⟨l', by rw [he, hl']; simp⟩
    | cons p q =>
      obtain ⟨t, dist⟩ := p
      obtain ⟨htlt, hw⟩ := hI.walk (t, dist) (by simp [hf])
      simp only at htlt hw
      obtain ⟨add, -, -, hc⟩ := lcBody_cases hs st hf (List.getElem?_eq_getElem htlt)
      rcases hc with ⟨hts, ⟨hl, he⟩ | ⟨-, he⟩⟩ | ⟨-, -, tr, -, he⟩
      · rw [he, Sum.inl.injEq] at hb
        subst hb
        have hon : OnLoop nodes sidx := ⟨t, dist, hw, hts⟩
        refine ⟨_, rfl, fun N hN => ?_, ⟨fun _ => hon,
          fun _ => ⟨(lcBack snode (nodes[t] :: st.trace)).reverse, by simp⟩⟩,
          fun _ => .inl ⟨dist + 1, by simp⟩⟩
        simp only [List.mem_append, List.mem_singleton, reduceCtorEq, or_false,
          LCEvent.deadlock.injEq] at hN
        rcases hN with h | rfl
        · obtain ⟨⟨l, hl⟩, -⟩ := hI.out _ h
          cases hl
        · exact ⟨t, dist, rfl, hw, hts⟩
      · rw [he] at hb; cases hb
      · rw [he] at hb; cases hb
  · intro st st' hI hb
    cases hf : st.frontier with
    | nil => unfold lcBody at hb; rw [hf] at hb; cases hb
    | cons p q =>
      obtain ⟨t, dist⟩ := p
      obtain ⟨htlt, hw⟩ := hI.walk (t, dist) (by simp [hf])
      simp only at htlt hw
      have htn := List.getElem?_eq_getElem htlt
      obtain ⟨add, hnd, hadd, hc⟩ := lcBody_cases hs st hf htn
      have hvis : st.visited ∪ add.toFinset ⊆ Finset.range nodes.length := by
        intro k hk
        rcases Finset.mem_union.1 hk with h | h
        · exact hI.vis h
        · exact Finset.mem_range.2 (hadd k (List.mem_toFinset.1 h)).2.1
      have hcard : (st.visited ∪ add.toFinset).card = st.visited.card + add.length := by
        rw [Finset.card_union_of_disjoint, List.toFinset_card_of_nodup hnd]
        rw [Finset.disjoint_left]
        intro k h1 h2
        exact (hadd k (List.mem_toFinset.1 h2)).2.2.1 h1
      have hle : (st.visited ∪ add.toFinset).card ≤ nodes.length := by
        simpa using Finset.card_le_card hvis
      have hwalk : ∀ p ∈ q ++ add.map (fun k => (k, dist + 1)),
          p.1 < nodes.length ∧ IWalk nodes sidx p.1 p.2 := by
        intro p hp
        rcases List.mem_append.1 hp with h | h
        · exact hI.walk p (by rw [hf]; simp [h])
        · obtain ⟨k, hk, rfl⟩ := List.mem_map.1 h
          exact ⟨(hadd k hk).2.1, hw.snoc (hadd k hk).1⟩
      rcases hc with ⟨hts, ⟨-, he⟩ | ⟨hl, he⟩⟩ | ⟨hnts, hall, tr, htr, he⟩
      · rw [he] at hb; cases hb
      · rw [he, Sum.inr.injEq] at hb
        subst hb
        refine ⟨⟨hwalk, hvis, fun e h => ?_, fun h => by simp at h, fun h => by simp at h,
          fun _ => ?_⟩, ?_⟩
        · rcases List.mem_append.1 h with h | h
          · exact hI.out e h
          · rw [List.mem_singleton] at h
            exact ⟨⟨_, h⟩, t, dist, hw, hts⟩
        · by_cases ho : st.out = []
          · obtain ⟨m, n, h1, h2, h3⟩ := hts
            rw [htn, Option.some.injEq] at h1
            rw [hs, Option.some.injEq] at h2
            subst h1 h2
            have htok : TraceOk snode (nodes[t] :: st.trace) ∧
                ∀ n ∈ nodes[t] :: st.trace, n ∈ nodes := by
              rcases hI.trace ho with ⟨h1, h2, h4⟩ | ⟨h1, h2, h4⟩
              · have : t = sidx := h4 (t, dist) (by simp [hf])
                subst this
                rw [htn, Option.some.injEq] at hs
                rw [h1, hs]
                exact ⟨.one, by rw [← hs]; simp⟩
              · obtain ⟨m, hm, n, hn, hmn⟩ := h4 (t, dist) (by simp [hf])
                rw [htn, Option.some.injEq] at hn
                subst hn
                refine ⟨.cons hm hmn h1, fun n hn => ?_⟩
                rcases List.mem_cons.1 hn with rfl | hn
                · exact List.getElem_mem htlt
                · exact h2 n hn
            obtain ⟨c, c1, c2⟩ := lcBack_spec htok.1 snode ⟨_, by simp, h3⟩
            refine ⟨c, c2, fun n hn => ?_⟩
            rw [← c1] at hn
            refine ⟨htok.2 n (mem_lcBack hn), ?_⟩
            by_contra hne
            rw [List.any_eq_false] at hl
            exact hl n hn (by simpa using hne)
          · exact hI.ill ho
        · simp only [List.length_append, List.length_map, List.length_cons, hf]
          omega
      · rw [he, Sum.inr.injEq] at hb
        subst hb
        refine ⟨⟨hwalk, hvis, hI.out, fun ho => ?_, fun ho => ?_, hI.ill⟩, ?_⟩
        · obtain ⟨D, h1, h2⟩ := hI.done ho
          refine ⟨insert t D, fun k hk => ?_, fun k hk => ?_⟩
          · have old : (k ∈ st.visited ∨ k = sidx) ∨ k ∈ add := by
              rcases hk with h | h
              · simp only [Finset.mem_union, List.mem_toFinset] at h; tauto
              · tauto
            rcases old with h | h
            · rcases h1 k h with h | ⟨d, h⟩
              · exact .inl (.inr h)
              · rw [hf] at h
                rcases List.mem_cons.1 h with h | h
                · simp only [Prod.mk.injEq] at h
                  exact .inl (.inl h.1)
                · exact .inr ⟨d, List.mem_append_left _ h⟩
            · exact .inr ⟨dist + 1, List.mem_append_right _ (List.mem_map.2 ⟨k, h, rfl⟩)⟩
          · rcases hk with rfl | hk
            · exact ⟨hnts, hall⟩
            · exact ⟨(h2 k hk).1, fun l hl => Finset.mem_union_left _ ((h2 k hk).2 l hl)⟩
        · rcases hI.trace ho with ⟨h1, h2, h4⟩ | ⟨h1, h2, h4⟩
          · have : t = sidx := h4 (t, dist) (by simp [hf])
            subst this
            have hq : q = [] := by
              rw [hf] at h2
              simp only [List.length_cons] at h2
              exact List.length_eq_zero_iff.1 (by omega)
            subst hq
            rw [htn, Option.some.injEq] at hs
            rcases htr with rfl | ⟨rfl, hno⟩
            · right
              rw [h1, hs]
              refine ⟨.one, by rw [← hs]; simp, fun p hp => ?_⟩
              simp only [List.nil_append] at hp
              obtain ⟨k, hk, rfl⟩ := List.mem_map.1 hp
              obtain ⟨m, n, e1, e2, e3⟩ := (hadd k hk).1
              rw [htn, Option.some.injEq, hs] at e1
              exact ⟨snode, by simp, n, e2, e1 ▸ e3⟩
            · left
              have : add = [] := by
                rw [List.eq_nil_iff_forall_not_mem]
                intro k hk
                exact hno k (hadd k hk).1
              subst this
              exact ⟨h1, by simp, by simp⟩
          · right
            rcases htr with rfl | ⟨rfl, hno⟩
            · obtain ⟨m, hm, n, hn, hmn⟩ := h4 (t, dist) (by simp [hf])
              rw [htn, Option.some.injEq] at hn
              subst hn
              refine ⟨.cons hm hmn h1, fun n hn => ?_, fun p hp => ?_⟩
              · rcases List.mem_cons.1 hn with rfl | hn
                · exact List.getElem_mem htlt
                · exact h2 n hn
              · rcases List.mem_append.1 hp with h | h
                · obtain ⟨m, hm, n, hn, hmn⟩ := h4 p (by rw [hf]; simp [h])
                  exact ⟨m, by simp [hm], n, hn, hmn⟩
                · obtain ⟨k, hk, rfl⟩ := List.mem_map.1 h
                  obtain ⟨m, n, e1, e2, e3⟩ := (hadd k hk).1
                  rw [htn, Option.some.injEq] at e1
                  exact ⟨_, by simp, n, e2, e1 ▸ e3⟩
            · have : add = [] := by
                rw [List.eq_nil_iff_forall_not_mem]
                intro k hk
                exact hno k (hadd k hk).1
              subst this
              refine ⟨h1, h2, fun p hp => h4 p ?_⟩
              rw [hf]
              simp only [List.map_nil, List.append_nil] at hp
              simp [hp]
        · simp only [List.length_append, List.length_map, List.length_cons, hf]
          omega
  · refine ⟨fun p hp => ?_, by simp, by simp, fun _ => ⟨∅, fun k hk => ?_, by simp⟩, fun _ => .inl ?_,
      by simp⟩
    · simp only [List.mem_singleton] at hp
      subst hp
      exact ⟨hslt, fun _ => sidx, rfl, rfl, by simp⟩
    · simp only [Finset.notMem_empty, false_or] at hk
      exact .inr ⟨0, by simp [hk]⟩
    · simp
  · simp only [List.length_singleton, Finset.card_empty]
    omega

/-! ### All searches -/

theorem lcAll_spec {nodes : List LCNode} {fuel : ℕ} (hfuel : nodes.length + 1 < fuel) :
    ∃ out, lcAll fuel nodes = some out ∧ ∀ e, e ∈ out ↔ ∃ sidx r,
      lcFrom fuel nodes sidx = some r ∧ e ∈ r := by
  have hfrom : ∀ sidx < nodes.length, ∃ r, lcFrom fuel nodes sidx = some r := by
    intro sidx h
    unfold lcFrom
    rw [List.getElem?_eq_getElem h]
    simp only
    split
    · exact ⟨_, rfl⟩
    · obtain ⟨r, hr, out, ho, -⟩ := lc_search (List.getElem?_eq_getElem h) hfuel
      rw [hr, ho]
      exact ⟨out, rfl⟩
  have hnone : ∀ sidx, ¬ sidx < nodes.length → lcFrom fuel nodes sidx = none := by
    intro sidx h
    unfold lcFrom
    rw [List.getElem?_eq_none (by omega)]
  have key : ∀ (l : List ℕ) (acc : List LCEvent), (∀ k ∈ l, k < nodes.length) →
      ∃ out, l.foldlM (fun out sidx => (lcFrom fuel nodes sidx).map (out ++ ·)) acc = some out ∧
        ∀ e, e ∈ out ↔ e ∈ acc ∨ ∃ sidx ∈ l, ∃ r, lcFrom fuel nodes sidx = some r ∧ e ∈ r := by
    intro l
    induction l with
    | nil => intro acc _; exact ⟨acc, rfl, by simp⟩
    | cons k l ih =>
      intro acc hl
      obtain ⟨r, hr⟩ := hfrom k (hl k (by simp))
      obtain ⟨out, h1, h2⟩ := ih (acc ++ r) fun k hk => hl k (by simp [hk])
      refine ⟨out, ?_, fun e => ?_⟩
      · rw [List.foldlM_cons, hr]; exact h1
      · rw [h2, List.mem_append]
        constructor
        · rintro ((h | h) | ⟨s, hs, r', h⟩)
          · exact .inl h
          · exact .inr ⟨k, by simp, r, hr, h⟩
          · exact .inr ⟨s, by simp [hs], r', h⟩
        · rintro (h | ⟨s, hs, r', h, he⟩)
          · exact .inl (.inl h)
          · rcases List.mem_cons.1 hs with rfl | hs
            · rw [hr, Option.some.injEq] at h
              subst h
              exact .inl (.inr he)
            · exact .inr ⟨s, hs, r', h, he⟩
  obtain ⟨out, h1, h2⟩ := key (List.range nodes.length) [] (by simp)
  refine ⟨out, h1, fun e => ?_⟩
  rw [h2]
  constructor
  · rintro (h | ⟨s, -, r, h⟩)
    · cases h
    · exact ⟨s, r, h⟩
  · rintro ⟨s, r, h, he⟩
    refine .inr ⟨s, ?_, r, h, he⟩
    by_contra hs
    rw [hnone s (by simpa using hs)] at h
    cases h

/-- A search from an illegitimate node. -/
theorem lcFrom_ill {nodes : List LCNode} {fuel sidx : ℕ} {n : LCNode} (hn : nodes[sidx]? = some n)
    (hl : n.legit = false) (hfuel : nodes.length + 1 < fuel) :
    ∃ r, lcFrom fuel nodes sidx = some r ∧ LCPost nodes sidx n (some r) := by
  obtain ⟨r, hr, hp⟩ := lc_search hn hfuel
  obtain ⟨out, ho, h⟩ := hp
  subst ho
  refine ⟨out, ?_, out, rfl, h⟩
  unfold lcFrom
  rw [hn]
  simp only [hl]
  rw [hr]
  rfl

theorem lcFrom_legit {nodes : List LCNode} {fuel sidx : ℕ} {r : List LCEvent}
    (h : lcFrom fuel nodes sidx = some r) {e : LCEvent} (he : e ∈ r) :
    ∃ n, nodes[sidx]? = some n ∧ n.legit = false := by
  unfold lcFrom at h
  cases hn : nodes[sidx]? with
  | none => rw [hn] at h; cases h
  | some n =>
    rw [hn] at h
    simp only at h
    cases hl : n.legit with
    | false => exact ⟨n, rfl, hl⟩
    | true =>
      rw [hl] at h
      simp only [if_true, Option.some.injEq] at h
      subst h; cases he

/-- A closed walk by index is a ring of the same size. -/
theorem ring_of_loop {nodes : List LCNode} {sidx t d : ℕ} (hw : IWalk nodes sidx t d)
    (ht : IFoll nodes t sidx) : ∃ x : ZMod (d + 1) → ℕ,
      (∀ i, ∃ n ∈ nodes, triple x i = LCNode.tr n) ∧
      ∃ n, nodes[sidx]? = some n ∧ triple x 0 = LCNode.tr n := by
  obtain ⟨f, f0, fd, fs⟩ := hw
  have hdef : ∀ i ≤ d, ∃ n, nodes[f i]? = some n := by
    intro i hi
    rcases Nat.lt_or_ge i d with h | h
    · obtain ⟨m, n, h1, -⟩ := fs i h; exact ⟨m, h1⟩
    · have : i = d := by omega
      subst this
      obtain ⟨m, n, h1, -⟩ := ht
      rw [fd]; exact ⟨m, h1⟩
  have hget : ∀ i ≤ d, nodes[f i]? = some (nodes.getD (f i) ⟨false, 0, 0, 0⟩) := by
    intro i hi
    obtain ⟨n, hn⟩ := hdef i hi
    rw [hn, List.getD_eq_getElem?_getD, hn]; rfl
  obtain ⟨x, hx⟩ := ring_of_walk d (fun i => nodes.getD (f i) ⟨false, 0, 0, 0⟩)
    (fun i hi => by
      obtain ⟨m, n, h1, h2, h3⟩ := fs i hi
      rw [hget i (by omega), Option.some.injEq] at h1
      rw [hget (i + 1) (by omega), Option.some.injEq] at h2
      rw [h1, h2]; exact h3)
    (by
      obtain ⟨m, n, h1, h2, h3⟩ := ht
      rw [← fd, hget d le_rfl, Option.some.injEq] at h1
      rw [← f0, hget 0 (by omega), Option.some.injEq] at h2
      rw [h1, h2]; exact h3)
  refine ⟨x, fun i => ⟨_, List.mem_of_getElem? (hget i.val ?_), hx i⟩, _, ?_, hx 0⟩
  · have := ZMod.val_lt i; omega
  · have := hget 0 (by omega)
    rw [f0] at this
    simpa [f0] using this

/-- A closed backwards walk of illegitimate nodes is a ring. -/
theorem ring_of_allIll {nodes : List LCNode} {s : LCNode} (h : AllIll nodes s) :
    ∃ (m : ℕ) (x : ZMod (m + 1) → ℕ),
      ∀ i, ∃ n ∈ nodes, n.legit = false ∧ triple x i = LCNode.tr n := by
  obtain ⟨c, hc, hn⟩ := h
  set l := (c ++ [s]).reverse with hl
  have hlen : l.length = c.length + 1 := by simp [hl]
  have hrev : List.IsChain Foll (l ++ [s]) := by
    have := List.isChain_reverse.2 (show List.IsChain (fun a b => Foll b a) (s :: (c ++ [s])) from hc)
    rwa [List.reverse_cons, ← hl] at this
  have h0 : l[0]? = some s := by simp [hl]
  have hget : ∀ i ≤ c.length, l[i]? = some (l.getD i s) := by
    intro i hi
    rw [List.getD_eq_getElem?_getD, List.getElem?_eq_getElem (by omega)]; rfl
  rw [List.isChain_iff_getElem] at hrev
  obtain ⟨x, hx⟩ := ring_of_walk c.length (fun i => l.getD i s)
    (fun i hi => by
      have := hrev i (by simp [hlen]; omega)
      rw [List.getElem_append_left (by omega), List.getElem_append_left (by omega)] at this
      simpa [List.getD_eq_getElem?_getD, show i < l.length by omega,
        show i + 1 < l.length by omega] using this)
    (by
      have := hrev c.length (by simp [hlen])
      rw [List.getElem_append_left (by omega), List.getElem_append_right (by omega)] at this
      have e0 : l.getD 0 s = s := by rw [List.getD_eq_getElem?_getD, h0]; rfl
      rw [e0]
      simpa [List.getD_eq_getElem?_getD, show c.length < l.length by omega] using this)
  refine ⟨c.length, x, fun i => ?_⟩
  have hi : i.val ≤ c.length := by have := ZMod.val_lt i; omega
  have hm := List.mem_of_getElem? (hget i.val hi)
  rw [hl, List.mem_reverse] at hm
  exact ⟨_, (hn _ hm).1, (hn _ hm).2, hx i⟩

/-- A ring gives a closed walk. -/
theorem loop_of_ring {nodes : List LCNode} {m : ℕ} (x : ZMod (m + 1) → ℕ) (k : ZMod (m + 1) → ℕ)
    (hk : ∀ i, ∃ n, nodes[k i]? = some n ∧ LCNode.tr n = triple x i) (i : ZMod (m + 1)) :
    OnLoop nodes (k i) := by
  have hf : ∀ j, IFoll nodes (k j) (k (j + 1)) := by
    intro j
    obtain ⟨a, ha, ha'⟩ := hk j
    obtain ⟨b, hb, hb'⟩ := hk (j + 1)
    refine ⟨a, b, ha, hb, ?_⟩
    simp only [LCNode.tr, triple, Prod.mk.injEq, add_sub_cancel_right] at ha' hb'
    exact ⟨by rw [hb'.1, ha'.2.1], by rw [hb'.2.1, ha'.2.2]⟩
  refine ⟨k (i + (m : ℕ)), m, ⟨fun j => k (i + (j : ℕ)), by simp, rfl, fun j _ => ?_⟩, ?_⟩
  · have := hf (i + (j : ℕ))
    rwa [add_assoc, ← Nat.cast_succ] at this
  · have := hf (i + (m : ℕ))
    rwa [add_assoc, ← Nat.cast_succ, ZMod.natCast_self, add_zero] at this

theorem lcBack_chain (term : LCNode) (l : List LCNode) :
    List.IsChain (fun a b => Foll b a) (term :: lcBack term l) := by
  induction l generalizing term with
  | nil => simp [lcBack]
  | cons n l ih =>
    unfold lcBack
    split
    · rename_i h
      rw [List.isChain_cons_cons]
      exact ⟨h, ih n⟩
    · exact ih term

/-- Every printed trace consists of nodes, each followed by the next and the last by the start. -/
theorem lcFrom_trace {nodes : List LCNode} {fuel sidx : ℕ} {n : LCNode} (hn : nodes[sidx]? = some n)
    {r : List LCEvent} (h : lcFrom fuel nodes sidx = some r) {l : List LCNode} (hl : .ring l ∈ r) :
    List.IsChain Foll (l ++ [n]) ∧ ∀ m ∈ l, m ∈ nodes := by
  unfold lcFrom at h
  rw [hn] at h
  simp only at h
  split at h
  · rw [Option.some.injEq] at h; subst h; cases hl
  · let G : List LCEvent → Prop := fun out => ∀ l, LCEvent.ring l ∈ out →
      List.IsChain Foll (l ++ [n]) ∧ ∀ m ∈ l, m ∈ nodes
    have hring : ∀ (trace : List LCNode) (out : List LCEvent), (∀ m ∈ trace, m ∈ nodes) → G out →
        G (out ++ [.ring (lcBack n trace).reverse]) := by
      intro trace out ht ho l hl
      rw [List.mem_append, List.mem_singleton] at hl
      rcases hl with hl | hl
      · exact ho l hl
      · rw [LCEvent.ring.injEq] at hl
        subst hl
        refine ⟨?_, fun m hm => ht m (mem_lcBack (List.mem_reverse.1 hm))⟩
        have := List.isChain_reverse.2 (show List.IsChain (fun a b => Foll b a) _ from lcBack_chain n trace)
        rwa [List.reverse_cons] at this
    obtain ⟨o, ho, ho'⟩ := Option.bind_eq_some_iff.1 h
    have := loopFuel_partial (body := lcBody nodes sidx)
      (fun st => (∀ m ∈ st.trace, m ∈ nodes) ∧ G st.out) (fun o => ∀ r, o = some r → G r)
      (fun st b ⟨h1, h2⟩ hb => by
        unfold lcBody at hb
        split at hb
        · simp only [Sum.inl.injEq] at hb
          subst hb; rintro r ⟨⟩; exact h2
        · split at hb
          · rename_i tnode snode ht hs
            rw [hn, Option.some.injEq] at hs
            subst hs
            have htr : ∀ m ∈ (if (lcNext nodes tnode.id tnode.sc).length ≠ 0 then tnode :: st.trace
                else st.trace), m ∈ nodes := by
              intro m hm
              split at hm
              · rcases List.mem_cons.1 hm with rfl | hm
                · exact List.mem_of_getElem? ht
                · exact h1 m hm
              · exact h1 m hm
            simp only at hb
            generalize (if (lcNext nodes tnode.id tnode.sc).length ≠ 0 then tnode :: st.trace
                else st.trace) = tr at htr hb
            split at hb
            · split at hb
              · simp only [Sum.inl.injEq] at hb
                subst hb
                rintro r ⟨⟩ l hl
                rw [List.mem_append] at hl
                rcases hl with hl | hl
                · exact hring _ _ htr h2 l hl
                · simp at hl
              · cases hb
            · cases hb
          · simp only [Sum.inl.injEq] at hb
            subst hb; rintro r ⟨⟩)
      (fun st st' ⟨h1, h2⟩ hb => by
        unfold lcBody at hb
        split at hb
        · cases hb
        · split at hb
          · rename_i tnode snode ht hs
            rw [hn, Option.some.injEq] at hs
            subst hs
            have htr : ∀ m ∈ (if (lcNext nodes tnode.id tnode.sc).length ≠ 0 then tnode :: st.trace
                else st.trace), m ∈ nodes := by
              intro m hm
              split at hm
              · rcases List.mem_cons.1 hm with rfl | hm
                · exact List.mem_of_getElem? ht
                · exact h1 m hm
              · exact h1 m hm
            simp only at hb
            generalize (if (lcNext nodes tnode.id tnode.sc).length ≠ 0 then tnode :: st.trace
                else st.trace) = tr at htr hb
            split at hb
            · split at hb
              · cases hb
              · simp only [Sum.inr.injEq] at hb
                subst hb
                exact ⟨by simp, hring _ _ htr h2⟩
            · simp only [Sum.inr.injEq] at hb
              subst hb
              exact ⟨htr, h2⟩
          · cases hb)
      fuel _ o ⟨by simp, by intro l hl; cases hl⟩ ho
    exact this r ho' l hl

end Verif.Proofs
