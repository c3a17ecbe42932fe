import Verif.Proofs.NetBuild

/-! Property C104: the network that is built has the variables and processes that were declared. -/

namespace Verif.Props
open Verif.Model Verif.Proofs

/-- Every access names a declared variable with at least one member and has an index for every process. -/
def DeclsOk (ds : List VDecl) (ps : List (ℕ × List BAcc)) : Prop :=
  ∀ p ∈ ps, ∀ a ∈ p.2, (∃ d, ds[a.vbl]? = some d ∧ 0 < d.nmembs) ∧ p.1 ≤ a.idx.length

/-- **C104, variables.** No assertion fails; the table of variables has every member of every declared variable
exactly once; the members point to their own entry; the variables have the declared domains, and the list
of each declared variable and the lists of the roles contain exactly their variables. -/
theorem C104_variables (ds : List VDecl) (ps : List (ℕ × List BAcc)) (hok : DeclsOk ds ps) :
    ∃ net, BNet.build ds ps = some net ∧ net.vbls.Nodup ∧
      (∀ i j, (i, j) ∈ net.vbls ↔ ∃ d, ds[i]? = some d ∧ j < d.nmembs) ∧
      (∀ (i j : ℕ) (d : VDecl), ds[i]? = some d → j < d.nmembs →
        ∃ (ms : List (Option ℕ)) (k : ℕ), net.membs[i]? = some ms ∧ ms.length = d.nmembs ∧
        ms[j]? = some (some k) ∧ net.vbls[k]? = some (i, j) ∧ net.doms[k]? = some d.domsz) ∧
      net.doms.length = net.vbls.length ∧ net.lists.length = ds.length ∧
      (∀ (i : ℕ) (l : List ℕ), net.lists[i]? = some l → ∀ k, k ∈ l ↔ ∃ j, net.vbls[k]? = some (i, j)) ∧
      ∀ (k i j : ℕ) (d : VDecl), net.vbls[k]? = some (i, j) → ds[i]? = some d →
        (k ∈ net.pureShadow ↔ d.role = .shadow) ∧ (k ∈ net.purePuppet ↔ d.role = .puppet) ∧
        (k ∈ net.shadow ↔ d.role ≠ .puppet) ∧ (k ∈ net.puppet ↔ d.role ≠ .shadow) := by
  obtain ⟨base, net, h1, h2, h3⟩ := build_ok ds ps hok
  refine ⟨net, h1, ?_⟩
  rw [h3.same]
  simp only
  refine ⟨by rw [h2.vbls]; exact commitOrder_nodup ds, fun i j => by rw [h2.vbls]; exact mem_commitOrder, ?_,
    by rw [h2.ndoms, h2.vbls], h2.nlists, fun i l hl k => by rw [h2.vbls]; exact h2.lists i l hl k, ?_⟩
  · intro i j d hd hj
    obtain ⟨ms, k, e1, e2, e3, e4⟩ := member_of h2 hd hj
    refine ⟨ms, k, e1, e2, e3, e4, ?_⟩
    rw [h2.vbls] at e4
    rw [h2.doms k i j e4, hd]
    rfl
  · intro k i j d hk hd
    rw [h2.vbls] at hk
    obtain ⟨r1, r2, r3, r4⟩ := h2.roles k
    have key : ∀ P : VDecl → Prop, (∃ i j d, (commitOrder ds)[k]? = some (i, j) ∧ ds[i]? = some d ∧ P d) ↔ P d := by
      intro P
      constructor
      · rintro ⟨i', j', d', e1, e2, e3⟩
        rw [hk] at e1; cases e1
        rw [hd] at e2; cases e2
        exact e3
      · intro h; exact ⟨i, j, d, hk, hd, h⟩
    exact ⟨r1.trans (key fun d => d.role = .shadow), r2.trans (key fun d => d.role = .puppet),
      r3.trans (key fun d => d.role ≠ .puppet), r4.trans (key fun d => d.role ≠ .shadow)⟩

/-- The accesses that write, stated by the types that `write_ck` must accept. -/
theorem C104_writes (t : AccessType) :
    t.writes = true ↔ t ∈ [AccessType.write, .yield, .effect, .randomWrite] := by
  cases t <;> decide

/-- What a process of the kind `s` with the number `i` must have: its `r`-th variable is the member of the declared
variable whose number is the index modulo the number of members; its written variables are those of the written
accesses in their order; its mask keeps every variable that it does not write. -/
def ProcIs (ds : List VDecl) (net : BNet) (s i : ℕ) (accs : List BAcc) (pc : BPc) : Prop :=
  pc.symm = s ∧ pc.idx = i ∧
  List.Forall₂ (fun a v => ∃ d x, ds[a.vbl]? = some d ∧ a.idx[i]? = some x ∧
    net.vbls[v]? = some (a.vbl, (x % (d.nmembs : ℤ)).toNat)) accs pc.rvbls ∧
  List.Forall₂ (fun a v => ∃ d x, ds[a.vbl]? = some d ∧ a.idx[i]? = some x ∧
    net.vbls[v]? = some (a.vbl, (x % (d.nmembs : ℤ)).toNat)) (accs.filter fun a => a.type.writes) pc.wvbls ∧
  ∀ v, v ∈ pc.mask ↔ v < net.vbls.length ∧ v ∉ pc.wvbls

/-- **C104, processes.** The kinds of processes have their processes in order, one after the other; process `i` of
a kind accesses exactly the variables its accesses name; a variable is random exactly if some process has a
random read access to it. -/
theorem C104_processes (ds : List VDecl) (ps : List (ℕ × List BAcc)) (hok : DeclsOk ds ps) :
    ∃ net, BNet.build ds ps = some net ∧ net.symms.length = ps.length ∧
      net.pcs.length = (ps.map Prod.fst).sum ∧
      (∀ (s n : ℕ) (accs : List BAcc), ps[s]? = some (n, accs) → ∃ sy, net.symms[s]? = some sy ∧ sy.accs = accs ∧ sy.membs.length = n ∧
        (∀ r, r ∈ sy.wmap ↔ ∃ a, accs[r]? = some a ∧ a.type.writes = true) ∧
        ∀ i < n, ∃ pc, sy.membs[i]? = some (((ps.take s).map Prod.fst).sum + i) ∧
          net.pcs[((ps.take s).map Prod.fst).sum + i]? = some pc ∧ ProcIs ds net s i accs pc) ∧
      ∀ v, v ∈ net.random ↔ ∃ (s n : ℕ) (accs : List BAcc) (i r : ℕ) (a : BAcc) (pc : BPc), ps[s]? = some (n, accs) ∧ i < n ∧ accs[r]? = some a ∧
        a.type = .randomRead ∧ net.pcs[((ps.take s).map Prod.fst).sum + i]? = some pc ∧ pc.rvbls[r]? = some v := by
  obtain ⟨base, net, h1, h2, h3⟩ := build_ok ds ps hok
  have hvb : net.vbls = base.vbls := by rw [h3.same]
  have hpc : ∀ (s n : ℕ) (accs : List BAcc), ps[s]? = some (n, accs) → ∀ i < n,
      net.pcs[((ps.take s).map Prod.fst).sum + i]? = some (bpcOf base s accs i) := by
    intro s n accs hs i hi
    obtain ⟨hlt, hse⟩ := List.getElem?_eq_some_iff.1 hs
    have hsplit : ps = ps.take s ++ ((n, accs) :: ps.drop (s + 1)) := by
      rw [← hse, List.cons_getElem_drop_succ, List.take_append_drop]
    have hl : (ps.take s).length = s := by rw [List.length_take]; omega
    rw [h3.pcs]
    conv_lhs => rw [hsplit]
    have htk : (ps.take s ++ (n, accs) :: ps.drop (s + 1)).take s = ps.take s := by
      rw [List.take_append_of_le_length (by omega), List.take_of_length_le (by omega)]
    rw [htk, List.zipIdx_append, List.flatMap_append, List.getElem?_append_right (by rw [blocks_length]; omega),
      blocks_length, Nat.add_sub_cancel_left, List.zipIdx_cons, List.flatMap_cons,
      List.getElem?_append_left (by simpa using hi), List.getElem?_map, List.getElem?_range hi]
    simp [hl]
  have hacc : ∀ (s n : ℕ) (accs : List BAcc), ps[s]? = some (n, accs) → ∀ i < n, ∀ a ∈ accs, ∃ d x, ds[a.vbl]? = some d ∧
      a.idx[i]? = some x ∧ net.vbls[lookAcc base a i]? = some (a.vbl, (x % (d.nmembs : ℤ)).toNat) := by
    intro s n accs hs i hi a ha
    obtain ⟨ms, j, d, x, -, e2, e3, e4, -, -, -, e8⟩ :=
      lookAcc_spec h2 (hok (n, accs) (List.mem_of_getElem? hs) a ha) hi
    exact ⟨d, x, e2, e3, by rw [hvb, e8, e4]⟩
  refine ⟨net, h1, h3.nsymms, by rw [h3.pcs, blocks_length], ?_, ?_⟩
  · intro s n accs hs
    obtain ⟨sy, e1, e2, e3, e4⟩ := h3.last s (n, accs) hs
    refine ⟨sy, e1, e3, by rw [e2]; simp, ?_, ?_⟩
    · intro r
      rw [e4, List.mem_filter, List.mem_range]
      constructor
      · rintro ⟨hr, hw⟩
        rw [List.getElem?_eq_getElem hr] at hw
        exact ⟨_, List.getElem?_eq_getElem hr, by simpa using hw⟩
      · rintro ⟨a, ha, hw⟩
        refine ⟨(List.getElem?_eq_some_iff.1 ha).1, ?_⟩
        simp only
        rw [ha]
        exact hw
    · intro i hi
      refine ⟨_, ?_, hpc s n accs hs i hi, rfl, rfl, ?_, ?_, ?_⟩
      · rw [e2, List.getElem?_range' (by exact hi)]
        simp
      · unfold bpcOf
        rw [List.forall₂_map_right_iff, List.forall₂_same]
        exact hacc s n accs hs i hi
      · unfold bpcOf
        rw [List.forall₂_map_right_iff, List.forall₂_same]
        exact fun a ha => hacc s n accs hs i hi a (List.mem_filter.1 ha).1
      · intro v
        unfold bpcOf
        simp only
        rw [List.mem_filter, h2.ident, List.mem_range, hvb, h2.vbls, decide_eq_true_eq]
  · intro v
    rw [h3.random]
    constructor
    · rintro ⟨⟨n, accs⟩, hp, a, ha, e1, i, hi, rfl⟩
      obtain ⟨s, hs⟩ := List.mem_iff_getElem?.1 hp
      obtain ⟨r, hr⟩ := List.mem_iff_getElem?.1 ha
      refine ⟨s, n, accs, i, r, a, _, hs, hi, hr, e1, hpc s n accs hs i hi, ?_⟩
      unfold bpcOf
      simp only
      rw [List.getElem?_map, hr]
      rfl
    · rintro ⟨s, n, accs, i, r, a, pc, hs, hi, hr, e1, e2, e3⟩
      rw [hpc s n accs hs i hi] at e2
      cases e2
      unfold bpcOf at e3
      simp only at e3
      rw [List.getElem?_map, hr] at e3
      exact ⟨(n, accs), List.mem_of_getElem? hs, a, List.mem_of_getElem? hr, e1, i, hi, Option.some.inj e3⟩

/-- **C104, order.** If all declared variables have the same number of members, the members with the same number
are next to each other, in the order of declaration. -/
theorem C104_order (ds : List VDecl) (ps : List (ℕ × List BAcc)) (hok : DeclsOk ds ps) (n : ℕ) (hn : 1 ≤ n)
    (hne : ds ≠ []) (h : ∀ d ∈ ds, d.nmembs = n) :
    ∃ net, BNet.build ds ps = some net ∧
      net.vbls = (List.range n).flatMap fun j => (List.range ds.length).map fun i => (i, j) := by
  obtain ⟨base, net, h1, h2, h3⟩ := build_ok ds ps hok
  refine ⟨net, h1, ?_⟩
  rw [h3.same]
  simp only
  rw [h2.vbls]
  exact commitOrder_const hn hne h

/-- Three variables `x`, one variable `b` and seven variables `c`; a ring of three processes that read `x[i-1]`
and `b[0]` and write `x[i]`. -/
def trioNet : Option BNet :=
  BNet.build [⟨3, 2, .direct⟩, ⟨1, 4, .shadow⟩, ⟨7, 3, .puppet⟩]
    [(3, [⟨0, .read, [-1, 0, 1]⟩, ⟨1, .randomRead, [0, 0, 0]⟩, ⟨0, .write, [0, 1, 2]⟩])]

example : DeclsOk [⟨3, 2, .direct⟩, ⟨1, 4, .shadow⟩, ⟨7, 3, .puppet⟩]
    [(3, [⟨0, .read, [-1, 0, 1]⟩, ⟨1, .randomRead, [0, 0, 0]⟩, ⟨0, .write, [0, 1, 2]⟩])] := by
  intro p hp a ha
  rw [List.mem_singleton] at hp
  subst hp
  simp only [List.mem_cons, List.not_mem_nil, or_false] at ha
  rcases ha with rfl | rfl | rfl
  · exact ⟨⟨_, rfl, by decide⟩, by decide⟩
  · exact ⟨⟨_, rfl, by decide⟩, by decide⟩
  · exact ⟨⟨_, rfl, by decide⟩, by decide⟩

/-- The variables are cut into three parts, those with few members first. -/
example : trioNet.map (·.vbls) = some [(1, 0), (0, 0), (2, 0), (2, 1), (2, 2), (0, 1), (2, 3), (2, 4), (2, 5),
      (0, 2), (2, 6)] ∧
    trioNet.map (·.pcs.map (·.rvbls)) = some [[9, 0, 1], [1, 0, 5], [5, 0, 9]] ∧
    trioNet.map (·.random) = some [0] := by
  refine ⟨by decide +kernel, by decide +kernel, by decide +kernel⟩

/-- Once variables have been committed no more can be added. -/
example : (trioNet.bind fun net => net.addVariables ⟨2, 2, .direct⟩) = none := by decide +kernel

end Verif.Props
