import Verif.Proofs.Ppg

/-! Property C28: the two-phase adjacency list. -/

set_option linter.unusedSectionVars false

namespace Verif.Props
open Verif.Model

universe u
variable {T : Type} [DecidableEq T]

/-- Operations of a client after the degrees have been committed. -/
inductive AOp (T : Type) where
  | add (src : ℕ) (dst : T)
  | del (src : ℕ) (dst : T)
  | clear (src : ℕ)
  | flush

/-- Specification: the arcs of each node as a list, independent of any layout. -/
def aSpec (c : ℕ → List T) : AOp T → ℕ → List T
  | .add s d => fun i => if i = s then c i ++ [d] else c i
  | .del s d => fun i => if i = s then (c i).filter (· ≠ d) else c i
  | .clear s => fun i => if i = s then [] else c i
  | .flush => fun _ => []

/-- An operation is permitted when its node exists and an added arc was announced. -/
def aOk (caps : List ℕ) (c : ℕ → List T) : AOp T → Prop
  | .add s _ => s < caps.length ∧ (c s).length < caps.getD s 0
  | .del s _ => s < caps.length
  | .clear s => s < caps.length
  | .flush => True

/-- Runs an operation on the implementation. -/
def aRun (g : AdjList T) : AOp T → Option (AdjList T)
  | .add s d => g.addArc s d
  | .del s d => g.delArc s d
  | .clear s => g.delArcsFrom s
  | .flush => some g.flush

/-- Offset of a node: sum of the announced degrees of the nodes before it. -/
def off (caps : List ℕ) (i : ℕ) : ℕ := (caps.take i).sum

theorem off_succ {caps : List ℕ} {i : ℕ} (h : i < caps.length) :
    off caps (i + 1) = off caps i + caps.getD i 0 := by
  unfold off
  rw [List.take_succ_eq_append_getElem h, List.sum_append]
  simp [List.getD_eq_getElem?_getD, h]

theorem off_mono {caps : List ℕ} {i j : ℕ} (h : i < j) (hj : j ≤ caps.length) :
    off caps i + caps.getD i 0 ≤ off caps j := by
  induction j with
  | zero => omega
  | succ j ih =>
    rw [off_succ (by omega)]
    rcases Nat.lt_or_ge i j with h' | h'
    · have := ih h' (by omega); omega
    · have : i = j := by omega
      subst this; exact le_refl _

theorem off_end (caps : List ℕ) : off caps caps.length = caps.sum := by simp [off]

/-- The implementation represents the per-node lists `c`. -/
structure ARep (caps : List ℕ) (g : AdjList T) (c : ℕ → List T) : Prop where
  nlen : g.nodes.length = caps.length
  alen : g.arcs.length = caps.sum
  node : ∀ i < caps.length, g.nodes[i]? = some (some (off caps i), (c i).length)
  cap : ∀ i < caps.length, (c i).length ≤ caps.getD i 0
  arc : ∀ i < caps.length, ∀ j < (c i).length, g.arcs[off caps i + j]? = some ((c i)[j]?)

theorem ARep.arcsFrom {caps : List ℕ} {g : AdjList T} {c : ℕ → List T} (h : ARep caps g c)
    {i : ℕ} (hi : i < caps.length) :
    g.arcsFrom i = some (c i) ∧ g.degree i = some (c i).length := by
  constructor
  · unfold AdjList.arcsFrom
    rw [h.node i hi, Option.bind_some]
    by_cases hne : c i = []
    · simp [hne]
    · have hd : ∃ d : T, d ∈ c i := List.exists_mem_of_ne_nil _ hne
      obtain ⟨d, -⟩ := hd
      rw [mapM_some (g := fun j => (c i).getD j d)]
      · congr 1
        apply List.ext_getElem (by simp)
        intro j h1 h2
        simp [List.getD_eq_getElem?_getD, h2]
      · intro j hj
        have hj := List.mem_range.1 hj
        simp [h.arc i hi j hj, List.getD_eq_getElem?_getD, hj]
  · unfold AdjList.degree
    rw [h.node i hi]; rfl

theorem commitLoop_spec (o : ℕ) (l : List (Option ℕ × ℕ)) :
    (commitLoop o l).1.length = l.length ∧
    (commitLoop o l).2 = o + (l.map (·.2)).sum ∧
    ∀ i < l.length, (commitLoop o l).1[i]? = some (some (o + off (l.map (·.2)) i), 0) := by
  induction l generalizing o with
  | nil => simp [commitLoop]
  | cons p l ih =>
    obtain ⟨h1, h2, h3⟩ := ih (o + p.2)
    refine ⟨by simp [commitLoop, h1], by simp [commitLoop, h2, Nat.add_assoc], ?_⟩
    intro i hi
    cases i with
    | zero => simp [commitLoop, off]
    | succ i =>
      have := h3 i (by simpa using hi)
      simp [commitLoop, this, off, Nat.add_assoc]

theorem ARep.commit {g : AdjList T} (hn : ∀ p ∈ g.nodes, p.1 = none) (hne : g.nodes ≠ []) :
    ∃ g', g.commitDegrees = some g' ∧ ARep (g.nodes.map (·.2)) g' (fun _ => []) := by
  obtain ⟨h1, h2, h3⟩ := commitLoop_spec 0 g.nodes
  refine ⟨⟨(commitLoop 0 g.nodes).1, List.replicate (commitLoop 0 g.nodes).2 none⟩, ?_, ?_⟩
  · unfold AdjList.commitDegrees
    rcases hg : g.nodes with _ | ⟨⟨o, d⟩, l⟩
    · exact absurd hg hne
    · have := hn (o, d) (by rw [hg]; simp)
      simp only at this
      subst this
      rfl
  · refine ⟨by simp [h1], by simp [h2], ?_, by simp, by simp⟩
    intro i hi
    have := h3 i (by simpa using hi)
    simpa using this

theorem modify_get {α : Type} {l : List α} {f : α → α} {i j : ℕ} :
    (l.modify i f)[j]? = if i = j then (l[j]?).map f else l[j]? := by
  rw [List.getElem?_modify]
  split <;> simp

theorem ARep.step {caps : List ℕ} {g : AdjList T} {c : ℕ → List T} (h : ARep caps g c)
    {o : AOp T} (ho : aOk caps c o) : ∃ g', aRun g o = some g' ∧ ARep caps g' (aSpec c o) := by
  cases o with
  | flush =>
    refine ⟨_, rfl, ⟨by simp [AdjList.flush, h.nlen], h.alen, ?_, by simp [aSpec], by simp [aSpec]⟩⟩
    intro i hi
    simp [AdjList.flush, h.node i hi, aSpec]
  | clear s =>
    have hs : s < caps.length := ho
    refine ⟨_, if_pos (by rw [h.nlen]; exact hs), ⟨by simp [h.nlen], h.alen, ?_, ?_, ?_⟩⟩
    · intro i hi
      simp only [modify_get, h.node i hi, aSpec]
      by_cases he : s = i
      · subst he; simp
      · simp [he, Ne.symm he]
    · intro i hi
      simp only [aSpec]
      split
      · simp
      · exact h.cap i hi
    · intro i hi j hj
      simp only [aSpec] at hj ⊢
      split at hj
      · simp at hj
      · rename_i hne
        rw [if_neg hne]; exact h.arc i hi j hj
  | add s d =>
    obtain ⟨hs, hc⟩ := ho
    have hpos : off caps s + (c s).length < g.arcs.length := by
      rw [h.alen, ← off_end]
      have := off_mono (caps := caps) (i := s) (j := caps.length) hs le_rfl
      omega
    have hrun : g.addArc s d = some (AdjList.bump
        { g with arcs := g.arcs.set (off caps s + (c s).length) (some d) } s 1) := by
      unfold AdjList.addArc
      have h0 := h.node 0 (by omega)
      rcases hg : g.nodes with _ | ⟨⟨o, n⟩, l⟩
      · rw [hg] at h0; simp at h0
      · rw [hg] at h0
        simp only [List.getElem?_cons_zero, Option.some.injEq, Prod.mk.injEq] at h0
        obtain ⟨rfl, rfl⟩ := h0
        have hn := h.node s hs
        rw [hg] at hn
        simp only [hn, hpos, if_true]
    refine ⟨_, hrun, ⟨by simp [AdjList.bump, h.nlen], by simp [AdjList.bump, h.alen], ?_, ?_, ?_⟩⟩
    · intro i hi
      simp only [AdjList.bump, modify_get, h.node i hi, aSpec]
      by_cases he : s = i
      · subst he; simp
      · simp [he, Ne.symm he]
    · intro i hi
      simp only [aSpec]
      split
      · rename_i he; subst he; rw [List.length_append, List.length_singleton]; omega
      · exact h.cap i hi
    · intro i hi j hj
      simp only [AdjList.bump, aSpec] at hj ⊢
      by_cases he : i = s
      · subst he
        simp only [if_true] at hj ⊢
        by_cases hl : j = (c i).length
        · subst hl
          rw [List.getElem?_set_self hpos]
          simp
        · have hj' : j < (c i).length := by simp at hj; omega
          rw [List.getElem?_set_ne (by omega), h.arc i hi j hj', List.getElem?_append_left hj']
      · simp only [he, if_false] at hj ⊢
        have hcap := h.cap i hi
        rw [List.getElem?_set_ne, h.arc i hi j hj]
        rcases Nat.lt_or_gt_of_ne he with hlt | hgt
        · have := off_mono hlt hs.le; omega
        · have := off_mono hgt hi.le; omega
  | del s d =>
    have hs : s < caps.length := ho
    -- the compaction loop
    have loop : ∀ k m n arcs, m + k = (c s).length → n ≤ m → arcs.length = caps.sum →
        ((c s).take m).countP (· = d) = n →
        (∀ j < m - n, arcs[off caps s + j]? = some (((c s).take m).filter (· ≠ d))[j]?) →
        (∀ j, m ≤ j → j < (c s).length → arcs[off caps s + j]? = some ((c s)[j]?)) →
        (∀ x, x < off caps s ∨ off caps s + (c s).length ≤ x → arcs[x]? = g.arcs[x]?) →
        ∃ arcs', delLoop d k (off caps s + m) n arcs =
            some (arcs', (c s).countP (· = d)) ∧ arcs'.length = caps.sum ∧
          (∀ j < (c s).length - (c s).countP (· = d),
            arcs'[off caps s + j]? = some ((c s).filter (· ≠ d))[j]?) ∧
          (∀ x, x < off caps s ∨ off caps s + (c s).length ≤ x → arcs'[x]? = g.arcs[x]?) := by
      intro k
      induction k with
      | zero =>
        intro m n arcs hm hnm hlen hcnt hdone hrest hout
        have hm' : m = (c s).length := by omega
        subst hm'
        rw [List.take_length] at hcnt hdone
        exact ⟨arcs, by simp [delLoop, hcnt], hlen, by rw [hcnt]; exact hdone, hout⟩
      | succ k ih =>
        intro m n arcs hm hnm hlen hcnt hdone hrest hout
        have hmlt : m < (c s).length := by omega
        have hget := hrest m le_rfl hmlt
        rw [List.getElem?_eq_getElem hmlt] at hget
        have htake : (c s).take (m + 1) = (c s).take m ++ [(c s)[m]] :=
          List.take_succ_eq_append_getElem hmlt
        have hflen : (((c s).take m).filter (· ≠ d)).length = m - n := by
          have h1 := List.length_eq_countP_add_countP (· = d) (l := (c s).take m)
          rw [hcnt, List.length_take, Nat.min_eq_left hmlt.le] at h1
          rw [← List.countP_eq_length_filter]
          have h2 : (List.countP (fun x => decide (x ≠ d)) ((c s).take m)) =
              List.countP (fun a => decide ¬decide (a = d) = true) ((c s).take m) := by
            congr 1; funext x; simp
          omega
        unfold delLoop
        rw [hget]
        simp only
        by_cases he : (c s)[m] = d
        · rw [if_pos he]
          have := ih (m + 1) (n + 1) arcs (by omega) (by omega) hlen
            (by rw [htake, List.countP_append, hcnt]; simp [he])
            (by
              intro j hj
              rw [htake, List.filter_append]
              rw [hdone j (by omega)]
              simp [he])
            (fun j h1 h2 => hrest j (by omega) h2) hout
          simpa [Nat.add_assoc] using this
        · rw [if_neg he]
          have hsum : off caps s + (c s).length ≤ caps.sum := by
            rw [← off_end]
            have := off_mono (caps := caps) (i := s) (j := caps.length) hs le_rfl
            have := h.cap s hs
            omega
          have key : ∀ arcs2, arcs2 = (if n > 0 then arcs.set (off caps s + m - n) (some (c s)[m])
              else arcs) → arcs2.length = caps.sum ∧
              arcs2[off caps s + (m - n)]? = some (some (c s)[m]) ∧
              ∀ x, x ≠ off caps s + (m - n) → arcs2[x]? = arcs[x]? := by
            rintro arcs2 rfl
            have e : off caps s + m - n = off caps s + (m - n) := by omega
            split
            · rw [e]
              refine ⟨by simp [hlen], ?_, fun x hx => List.getElem?_set_ne (Ne.symm hx)⟩
              rw [List.getElem?_set_self]; rw [hlen]; omega
            · have : n = 0 := by omega
              subst this
              exact ⟨hlen, hget, fun x _ => rfl⟩
          obtain ⟨k1, k2, k3⟩ := key _ rfl
          have := ih (m + 1) n _ (by omega) (by omega) k1
            (by rw [htake, List.countP_append, hcnt]; simp [he])
            (by
              intro j hj
              rw [htake, List.filter_append]
              by_cases hjm : j = m - n
              · subst hjm
                rw [k2, List.getElem?_append_right (by rw [hflen]), hflen]
                simp [he]
              · rw [k3 _ (by omega), hdone j (by omega),
                  List.getElem?_append_left (by rw [hflen]; omega)])
            (fun j h1 h2 => by rw [k3 _ (by omega)]; exact hrest j (by omega) h2)
            (fun x hx => by rw [k3 _ (by omega)]; exact hout x hx)
          simpa [Nat.add_assoc] using this
    obtain ⟨arcs', e1, e2, e3, e4⟩ := loop (c s).length 0 0 g.arcs (by omega) le_rfl h.alen
      (by simp) (by simp) (fun j _ hj => h.arc s hs j hj) (fun _ _ => rfl)
    have hcnt : (c s).countP (· = d) + ((c s).filter (· ≠ d)).length = (c s).length := by
      rw [← List.countP_eq_length_filter, List.length_eq_countP_add_countP (· = d) (l := c s)]
      congr 2; funext x; simp
    refine ⟨⟨g.nodes.modify s fun p => (p.1, p.2 - (c s).countP (· = d)), arcs'⟩, ?_, ?_⟩
    · simp only [aRun, AdjList.delArc, h.node s hs]
      simp only [Nat.add_zero] at e1
      rw [e1]; rfl
    · refine ⟨by simp [h.nlen], e2, ?_, ?_, ?_⟩
      · intro i hi
        simp only [modify_get, h.node i hi, aSpec]
        by_cases he : s = i
        · subst he
          simp only [if_true, Option.map_some, Option.some.injEq, Prod.mk.injEq, true_and]
          omega
        · simp [he, Ne.symm he]
      · intro i hi
        simp only [aSpec]
        split
        · rename_i he; subst he
          have := h.cap i hi
          omega
        · exact h.cap i hi
      · intro i hi j hj
        simp only [aSpec] at hj ⊢
        by_cases he : i = s
        · subst he
          simp only [if_true] at hj ⊢
          exact e3 j (by omega)
        · simp only [he, if_false] at hj ⊢
          have h1 := h.cap i hi
          have h2 := h.cap s hs
          rw [e4, h.arc i hi j hj]
          rcases Nat.lt_or_gt_of_ne he with hlt | hgt
          · left; have := off_mono hlt hs.le; omega
          · right; have := off_mono hgt hi.le; omega

/-- Announcing phase: arcs are added before the degrees are committed. -/
def announce (n : ℕ) (l : List (ℕ × T)) : Option (AdjList T) :=
  l.foldlM (fun g p => g.addArc p.1 p.2) (AdjList.new T n)

theorem announce_spec (n : ℕ) (l : List (ℕ × T)) (hl : ∀ p ∈ l, p.1 < n) :
    ∃ g, announce n l = some g ∧ (∀ p ∈ g.nodes, p.1 = none) ∧ g.nodes.length = n ∧
      ∀ i < n, (g.nodes.map (·.2)).getD i 0 = l.countP (fun p => p.1 = i) := by
  have key : ∀ (l : List (ℕ × T)) (g : AdjList T), (∀ p ∈ l, p.1 < n) →
      (∀ p ∈ g.nodes, p.1 = none) → g.nodes.length = n →
      ∃ g', l.foldlM (fun g p => g.addArc p.1 p.2) g = some g' ∧ (∀ p ∈ g'.nodes, p.1 = none) ∧
        g'.nodes.length = n ∧
        ∀ i < n, (g'.nodes.map (·.2)).getD i 0 =
          (g.nodes.map (·.2)).getD i 0 + l.countP (fun p => p.1 = i) := by
    intro l
    induction l with
    | nil => intro g _ h1 h2; exact ⟨g, rfl, h1, h2, by simp⟩
    | cons p l ih =>
      intro g hl h1 h2
      have hp := hl p (by simp)
      have hadd : g.addArc p.1 p.2 = some (g.bump p.1 1) := by
        unfold AdjList.addArc
        rcases hg : g.nodes with _ | ⟨⟨o, d⟩, t⟩
        · rw [hg] at h2; simp at h2; omega
        · have := h1 (o, d) (by rw [hg]; simp)
          simp only at this
          subst this
          simp only
          rw [if_pos (by rw [← hg, h2]; exact hp)]
      have hb1 : ∀ q ∈ (g.bump p.1 1).nodes, q.1 = none := by
        intro q hq
        obtain ⟨i, hi, rfl⟩ := List.mem_iff_getElem.1 hq
        simp only [AdjList.bump, List.getElem_modify]
        have hi' : i < g.nodes.length := by simpa [AdjList.bump] using hi
        have := h1 _ (List.getElem_mem hi')
        split
        · exact this
        · exact this
      obtain ⟨g', e, a1, a2, a3⟩ := ih (g.bump p.1 1) (fun q hq => hl q (by simp [hq])) hb1
        (by simp [AdjList.bump, h2])
      refine ⟨g', by rw [List.foldlM_cons, hadd]; exact e, a1, a2, fun i hi => ?_⟩
      rw [a3 i hi, List.countP_cons]
      have hb : ((g.bump p.1 1).nodes.map (·.2)).getD i 0 =
          (g.nodes.map (·.2)).getD i 0 + if p.1 = i then 1 else 0 := by
        simp only [List.getD_eq_getElem?_getD, AdjList.bump, List.getElem?_map, modify_get]
        have : i < g.nodes.length := by omega
        rw [List.getElem?_eq_getElem this]
        split <;> simp
      rw [hb]
      simp only [decide_eq_true_eq]
      omega
  obtain ⟨g, e, a1, a2, a3⟩ := key l (AdjList.new T n) hl
    (by intro p hp; simp [AdjList.new] at hp; rw [hp.2]) (by simp [AdjList.new])
  refine ⟨g, e, a1, a2, fun i hi => ?_⟩
  rw [a3 i hi]
  simp [AdjList.new, List.getD_eq_getElem?_getD, hi]

/-- Runs operations on the specification as long as they are permitted. -/
def aOkAll (caps : List ℕ) : (ℕ → List T) → List (AOp T) → Prop
  | _, [] => True
  | c, o :: l => aOk caps c o ∧ aOkAll caps (aSpec c o) l

/-- **C28.** Announce any arcs of a graph with `n > 0` nodes, commit, then run any sequence of
additions, deletions, clearing of a node and flushes in which additions stay within the announced
degrees.  Nothing fails or touches memory outside the table, and iterating over the arcs of a node
gives exactly the arcs of that node according to the specification: additions append, `del_arc`
removes exactly the copies of the given arc and keeps the others in order, no operation affects
another node. -/
theorem C28_adjacency_list (n : ℕ) (hn : 0 < n) (announced : List (ℕ × T))
    (ha : ∀ p ∈ announced, p.1 < n) (ops : List (AOp T))
    (hops : aOkAll ((List.range n).map fun i => announced.countP (fun p => p.1 = i)) (fun _ => [])
      ops) :
    ∃ g0 g1 g2, announce n announced = some g0 ∧ g0.commitDegrees = some g1 ∧
      ops.foldlM aRun g1 = some g2 ∧
      ∀ i < n, g2.arcsFrom i = some ((ops.foldl aSpec fun _ => []) i) ∧
        g2.degree i = some ((ops.foldl aSpec fun _ => []) i).length := by
  obtain ⟨g0, e0, h1, h2, h3⟩ := announce_spec n announced ha
  obtain ⟨g1, e1, r1⟩ := ARep.commit (g := g0) h1 (by intro h; rw [h] at h2; simp at h2; omega)
  have hcaps : g0.nodes.map (·.2) =
      (List.range n).map fun i => announced.countP (fun p => p.1 = i) := by
    refine getD_ext (x := 0) (n := n) (by simp [h2]) (by simp) fun i hi => ?_
    rw [h3 i hi]
    simp [List.getD_eq_getElem?_getD, hi]
  rw [hcaps] at r1
  have run : ∀ (ops : List (AOp T)) (c : ℕ → List T) (g : AdjList T) (caps : List ℕ),
      ARep caps g c → aOkAll caps c ops →
      ∃ g', ops.foldlM aRun g = some g' ∧ ARep caps g' (ops.foldl aSpec c) := by
    intro ops
    induction ops with
    | nil => intro c g caps h _; exact ⟨g, rfl, h⟩
    | cons o ops ih =>
      intro c g caps h hok
      obtain ⟨g', e, h'⟩ := h.step hok.1
      obtain ⟨g'', e', h''⟩ := ih _ g' caps h' hok.2
      exact ⟨g'', by rw [List.foldlM_cons, e]; exact e', h''⟩
  obtain ⟨g2, e2, r2⟩ := run ops _ g1 _ r1 hops
  exact ⟨g0, g1, g2, e0, e1, e2, fun i hi => r2.arcsFrom (by simpa using hi)⟩

/-- **C28, the `DoTwice` pattern.** Announcing arcs and then adding the same arcs in any order leaves
each node with exactly its arcs, in the order added. -/
theorem C28_do_twice (n : ℕ) (hn : 0 < n) (l l' : List (ℕ × T)) (hl : ∀ p ∈ l, p.1 < n)
    (hp : l'.Perm l) :
    ∃ g0 g1 g2, announce n l = some g0 ∧ g0.commitDegrees = some g1 ∧
      l'.foldlM (fun g p => g.addArc p.1 p.2) g1 = some g2 ∧
      ∀ i < n, g2.arcsFrom i = some ((l'.filter (fun p => p.1 = i)).map (·.2)) := by
  have hspec : ∀ (l' : List (ℕ × T)) (c : ℕ → List T) (i : ℕ),
      ((l'.map fun p => AOp.add p.1 p.2).foldl aSpec c) i =
        c i ++ (l'.filter (fun p => p.1 = i)).map (·.2) := by
    intro l'
    induction l' with
    | nil => simp
    | cons p l' ih =>
      intro c i
      rw [List.map_cons, List.foldl_cons, ih]
      by_cases he : i = p.1
      · subst he; simp [aSpec]
      · simp [aSpec, he, Ne.symm he]
  have hok : ∀ (l' : List (ℕ × T)) (c : ℕ → List T) (caps : List ℕ),
      (∀ p ∈ l', p.1 < caps.length) →
      (∀ i < caps.length, (c i).length + l'.countP (fun p => p.1 = i) ≤ caps.getD i 0) →
      aOkAll caps c (l'.map fun p => AOp.add p.1 p.2) := by
    intro l'
    induction l' with
    | nil => intros; trivial
    | cons p l' ih =>
      intro c caps h1 h2
      have hp := h1 p (by simp)
      refine ⟨⟨hp, ?_⟩, ih _ _ (fun q hq => h1 q (by simp [hq])) fun i hi => ?_⟩
      · have := h2 p.1 hp
        simp only [List.countP_cons, decide_true, if_true] at this
        omega
      · have := h2 i hi
        rw [List.countP_cons] at this
        simp only [aSpec]
        by_cases he : i = p.1
        · subst he; simp at this ⊢; omega
        · simp only [he, if_false]
          omega
  obtain ⟨g0, g1, g2, e0, e1, e2, h⟩ := C28_adjacency_list n hn l hl
    (l'.map fun p => AOp.add p.1 p.2) (by
      refine hok _ _ _ (fun p hp' => by simpa using hl p (hp.subset hp')) fun i hi => ?_
      have hi : i < n := by simpa using hi
      rw [hp.countP_eq]
      simp [List.getD_eq_getElem?_getD, hi])
  refine ⟨g0, g1, g2, e0, e1, ?_, fun i hi => ?_⟩
  · rw [← e2, List.foldlM_map]; rfl
  · rw [(h i hi).1, hspec]; simp

example : ((announce 3 [(0, 7), (2, 8), (0, 9), (2, 8)]).bind fun g => g.commitDegrees.bind fun g =>
    ([AOp.add 2 8, .add 0 9, .add 2 5, .add 0 7, .del 2 8].foldlM aRun g).map fun g =>
      (g.arcsFrom 0, g.arcsFrom 1, g.arcsFrom 2)) = some (some [9, 7], some [], some [5]) := by
  decide +kernel

/-- Adding more arcs than announced overwrites the arcs of the next node: the restriction to the
announced degrees is needed. -/
theorem C28_overflow_limit :
    ((announce 2 [(0, 7), (1, 8)]).bind fun g => g.commitDegrees.bind fun g =>
      ([AOp.add 1 8, .add 0 7, .add 0 9].foldlM aRun g).map fun g => g.arcsFrom 1) =
      some (some [9]) := by decide +kernel

end Verif.Props
