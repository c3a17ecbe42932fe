import Verif.Proofs.Search
import Verif.Props.Stab

/-! Properties C17 and C61: the backtracking search. -/

namespace Verif.Props
open Verif.Model Verif.Spec Verif.Proofs

universe u v
variable {γ : Type u} {α : Type v}

/-- The instances of a partial solution hold the same actions, without repetition, and among them
are all of `B`. -/
def Agree (B : Finset ℕ) (L : List (SInst α)) : Prop :=
  (∀ x ∈ L, x.actions.Nodup ∧ ∀ b ∈ B, b ∈ x.actions) ∧
    ∀ x ∈ L, ∀ y ∈ L, ∀ a, a ∈ x.actions ↔ a ∈ y.actions

theorem agree_of_same {N : List Bool} {B : Finset ℕ} {L : List (SInst α)} (h : Same N B L) :
    Agree B L := by
  obtain ⟨-, h2, S, h3, h4⟩ := h
  refine ⟨fun x hx => ⟨h2 x hx, fun b hb => ?_⟩, fun x hx y hy a => ?_⟩
  · rw [← List.mem_toFinset, h4 x hx]; exact h3 hb
  · rw [← List.mem_toFinset, ← List.mem_toFinset, h4 x hx, h4 y hy]

theorem same_of_agree {B : Finset ℕ} {L : List (SInst α)} (h : Agree B L) :
    Same (L.map SInst.noPartial) B L := by
  refine ⟨rfl, fun x hx => (h.1 x hx).1, ?_⟩
  cases L with
  | nil => exact ⟨B, Finset.Subset.refl _, by simp⟩
  | cons x l =>
    refine ⟨x.actions.toFinset, fun b hb => List.mem_toFinset.2 ((h.1 x (by simp)).2 b hb), ?_⟩
    intro y hy
    ext a
    rw [List.mem_toFinset, List.mem_toFinset]
    exact h.2 y hy x (by simp) a

theorem baseOk_of_agree {env : SearchEnv γ α} {B : Finset ℕ} (h : ∀ g, Agree B (env.base g)) :
    BaseOk env B := fun g =>
  let ⟨_, h2, h3⟩ := same_of_agree (h g)
  ⟨h2, h3⟩

theorem perm_of_agree {B : Finset ℕ} {L : List (SInst α)} (h : Agree B L) {x y : SInst α} (hx : x ∈ L)
    (hy : y ∈ L) : x.actions.Perm y.actions :=
  (List.perm_ext_iff_of_nodup (h.1 x hx).1 (h.1 y hy).1).2 (h.2 x hx y hy)

theorem good_verified {env : SearchEnv γ α} {N : List Bool} {B : Finset ℕ} {ps : PSyn α}
    (hg : GoodSyn N B ps) {info : StabInfo} {n : ℕ} (hv : verifySolutions env ps {} = (true, info, n))
    {acts : List ℕ} (ha : ps.insts.head?.map SInst.actions = some acts) :
    acts.Nodup ∧ (∀ b ∈ B, b ∈ acts) ∧ ps.insts.map SInst.noPartial = N ∧
    ∀ (k : ℕ) (np : Bool), N[k]? = some np → np = true ∨ env.verifyFound = true →
      ∃ l : List ℕ, l.Perm acts ∧ (env.stab k l).ok = true ∧ (k = 0 → l = acts) := by
  have hag := agree_of_same (hg.mono Finset.subset_union_left)
  rw [Option.map_eq_some_iff] at ha
  obtain ⟨x, hx, rfl⟩ := ha
  have hxm : x ∈ ps.insts := List.mem_of_mem_head? hx
  refine ⟨(hag.1 x hxm).1, (hag.1 x hxm).2, hg.1, ?_⟩
  intro k np hk hnp
  rw [← hg.1, List.getElem?_map, Option.map_eq_some_iff] at hk
  obtain ⟨y, hy, rfl⟩ := hk
  refine ⟨y.actions, perm_of_agree hag (List.mem_of_getElem? hy) hxm, ?_, ?_⟩
  · exact (verifySolutions_spec hv).1 k y hy hnp
  · rintro rfl
    rw [List.head?_eq_getElem?, hy, Option.some.injEq] at hx
    rw [hx]

/-- C17: whatever the parts of the search that are left open do, when `AddStabilization` reports
success the stabilization check has accepted, for each system that had to be verified, the actions
returned (in some order; for the first system in the order returned).  They include the actions
given at the start.  The recorded number of layers is the positive sum over the systems (one for each
only verified) and less than the best known one. -/
theorem C17_found_verified (env : SearchEnv γ α) (B : Finset ℕ) (hbase : ∀ g, Agree B (env.base g))
    (fuel : ℕ) (g g' : γ) (ps : PSyn α) (hps : Agree (B ∪ ps.picks.toFinset) ps.insts)
    (acts : List ℕ) (h : addStabilization env fuel g ps = some (.found g' acts)) :
    acts.Nodup ∧ (∀ b ∈ B, b ∈ acts) ∧
    (∀ (k : ℕ) (x : SInst α), ps.insts[k]? = some x → x.noPartial = true ∨ env.verifyFound = true →
      ∃ l : List ℕ, l.Perm acts ∧ (env.stab k l).ok = true ∧ (k = 0 → l = acts)) ∧
    ∃ (n : ℕ) (g0 : γ) (L : List (SInst α)), g' = env.setOptimal n g0 ∧ 0 < n ∧
      (env.optimal g0 = 0 ∨ n < env.optimal g0) ∧
      L.map SInst.noPartial = ps.insts.map SInst.noPartial ∧ (∀ x ∈ L, x.actions.Perm acts) ∧
      (∀ x ∈ L, env.deadlock x.rest = false) ∧
      n = (L.zipIdx.map fun e => if e.1.noPartial then 1 else
        if env.verifyFound then (env.stab e.2 e.1.actions).nlayers else 0).sum := by
  unfold addStabilization at h
  split at h
  · simp at h
  · split at h
    · simp at h
    · rw [Option.bind_eq_some_iff] at h
      obtain ⟨o, h1, h2⟩ := h
      simp only [id] at h2
      subst h2
      obtain ⟨p, g0, info, n, e1, e2, e3, e4, e5, e6, e7⟩ := addLoop_spec (baseOk_of_agree hbase)
        (cur := { ps with level := 0 }) (stackInv_start (same_of_agree hps)) h1
      obtain ⟨f1, f2, f3, f4⟩ := good_verified e1 e2 e4
      refine ⟨f1, f2, fun k x hk hx => f4 k x.noPartial (by rw [List.getElem?_map, hk]; rfl) hx,
        n, g0, p.insts, e6, e5, e7, f3, ?_, ?_, (verifySolutions_spec e2).2⟩
      · intro x hx
        rw [Option.map_eq_some_iff] at e4
        obtain ⟨y, hy, rfl⟩ := e4
        exact perm_of_agree (agree_of_same (e1.mono Finset.subset_union_left)) hx
          (List.mem_of_mem_head? hy)
      · intro x hx
        rw [deadlocksCk, List.any_eq_false] at e3
        simpa using e3 x hx

/-- C17 for `try_order_synthesis`. -/
theorem C17_order_verified (env : SearchEnv γ α) (B : Finset ℕ) (hbase : ∀ g, Agree B (env.base g))
    (fuel : ℕ) (g g' : γ) (ps : PSyn α) (hps : Agree (B ∪ ps.picks.toFinset) ps.insts)
    (acts : List ℕ) (h : tryOrder env fuel g ps = some (.found g' acts)) :
    acts.Nodup ∧ (∀ b ∈ B, b ∈ acts) ∧
    ∀ (k : ℕ) (x : SInst α), ps.insts[k]? = some x → x.noPartial = true ∨ env.verifyFound = true →
      ∃ l : List ℕ, l.Perm acts ∧ (env.stab k l).ok = true ∧ (k = 0 → l = acts) := by
  unfold tryOrder at h
  split at h
  · simp at h
  · simp at h
  · simp at h
  · rename_i g1 p hl
    have hg := orderLoop_spec (baseOk_of_agree hbase) (same_of_agree hps) hl
    split at h
    · simp at h
    · rename_i x l hx
      split at h
      · simp at h
      · split at h
        · rename_i r hv
          simp only [Option.some.injEq, AddOut.found.injEq] at h
          obtain ⟨-, rfl⟩ := h
          obtain ⟨f1, f2, f3, f4⟩ := good_verified hg hv (acts := x.actions) (by rw [hx]; rfl)
          exact ⟨f1, f2, fun k y hk hy => f4 k y.noPartial (by rw [List.getElem?_map, hk]; rfl) hy⟩
        · simp at h

/-- C17, put together with C13: if the check used for system `k` is `stabilization_ck` on the union of
the transitions of the actions, the returned actions make that system self-stabilize to a part of
its invariant. -/
theorem C17_found_selfstab {σ : Type} {τ : Type} [Fintype σ] [DecidableEq σ] [DecidableEq τ]
    (env : SearchEnv γ α) (B : Finset ℕ) (hbase : ∀ g, Agree B (env.base g))
    (fuel : ℕ) (g g' : γ) (ps : PSyn α) (hps : Agree (B ∪ ps.picks.toFinset) ps.insts)
    (acts : List ℕ) (h : addStabilization env fuel g ps = some (.found g' acts))
    (k : ℕ) (x : SInst α) (hk : ps.insts[k]? = some x)
    (hver : x.noPartial = true ∨ env.verifyFound = true)
    (sys : Sys σ τ) (hid : ∀ e, e ∈ sys.identXn ↔ e.1 = e.2) (hnp : sys.probabilistic = false)
    (opt : StabOpt) (hnu : opt.uniring = false) (actXn : ℕ → Finset (σ × σ))
    (pcs : List ℕ → List (Finset (σ × σ))) (sfuel : ℕ) (hf : 2 * Fintype.card σ + 1 < sfuel)
    (hstab : ∀ l, (env.stab k l).ok = true →
      ∃ I n, stabCk sfuel sys opt (l.toFinset.biUnion actXn) (l.toFinset.biUnion actXn) (pcs l) =
        some (.accept (I, n))) :
    ∃ I ⊆ sys.invariant ∩ sys.closedAssume,
      SelfStab (acts.toFinset.biUnion actXn) sys.closedAssume I := by
  obtain ⟨-, -, h3, -⟩ := C17_found_verified env B hbase fuel g g' ps hps acts h
  obtain ⟨l, h4, h5, -⟩ := h3 k x hk hver
  obtain ⟨I, n, h6⟩ := hstab l h5
  obtain ⟨e1, e2, -⟩ := C13_accept_selfstab sys hid hnp opt hnu _ _ sfuel hf I n h6
  rw [List.toFinset_eq_of_perm _ _ h4] at e2
  exact ⟨I, e1, e2⟩

/-- Without `verify_found` and without a system that is only verified there is never a success: the
sum of the layers is zero and the `Claim` at src/search.cc:204 fails. -/
theorem C17_no_verification_aborts (env : SearchEnv γ α) (B : Finset ℕ)
    (hbase : ∀ g, Agree B (env.base g)) (fuel : ℕ) (g g' : γ) (ps : PSyn α)
    (hps : Agree (B ∪ ps.picks.toFinset) ps.insts) (acts : List ℕ) (hv : env.verifyFound = false)
    (hn : ∀ x ∈ ps.insts, x.noPartial = false) :
    addStabilization env fuel g ps ≠ some (.found g' acts) := by
  intro h
  obtain ⟨-, -, -, n, g0, L, -, h1, -, h2, -, -, h3⟩ :=
    C17_found_verified env B hbase fuel g g' ps hps acts h
  have : ∀ x ∈ L, x.noPartial = false := by
    intro x hx
    have : x.noPartial ∈ ps.insts.map SInst.noPartial := h2 ▸ List.mem_map_of_mem hx
    obtain ⟨y, hy, he⟩ := List.mem_map.1 this
    rw [← he]; exact hn y hy
  have h0 : (L.zipIdx.map fun e => if e.1.noPartial then 1 else
      if env.verifyFound then (env.stab e.2 e.1.actions).nlayers else 0).sum = 0 := by
    rw [List.sum_eq_zero]
    intro m hm
    obtain ⟨e, he, rfl⟩ := List.mem_map.1 hm
    have := this e.1 (by
      obtain ⟨a, b⟩ := e
      exact List.mem_of_getElem? (List.mk_mem_zipIdx_iff_getElem?.1 he))
    simp [this, hv]
  omega

/-- C61: after a successful `revise_actions` all systems hold the same actions, among them the ones
present before, the ones added, and the picks, unless the partial solution was rebuilt from
`base_partial` with other picks. -/
theorem C61_systems_agree (env : SearchEnv γ α) (B : Finset ℕ) (hbase : ∀ g, Agree B (env.base g))
    (fuel : ℕ) (g g' : γ) (ps ps' : PSyn α) (hps : Agree (B ∪ ps.picks.toFinset) ps.insts)
    (dels : Finset ℕ) (n : Option ℕ)
    (h : reviseActions env fuel g ps ∅ dels = some (g', true, ps', n)) :
    Agree (B ∪ ps'.picks.toFinset) ps'.insts ∧ ps'.level = ps.level ∧
      ps'.insts.map SInst.noPartial = ps.insts.map SInst.noPartial := by
  obtain ⟨h1, h2⟩ := reviseDel_spec (baseOk_of_agree hbase) (same_of_agree hps) h
  exact ⟨agree_of_same (h2 rfl), h1, (h2 rfl).1⟩

/-- C61 for `pick_action`. -/
theorem C61_pick_agree (env : SearchEnv γ α) (B : Finset ℕ) (hbase : ∀ g, Agree B (env.base g))
    (fuel : ℕ) (g g' : γ) (ps ps' : PSyn α) (hps : Agree (B ∪ ps.picks.toFinset) ps.insts) (a : ℕ)
    (h : pickAction env fuel g ps a = some (g', true, ps')) :
    Agree (B ∪ ps'.picks.toFinset) ps'.insts ∧ ps'.level = ps.level ∧
      ps'.insts.map SInst.noPartial = ps.insts.map SInst.noPartial := by
  obtain ⟨h1, h2⟩ := pickAction_spec (baseOk_of_agree hbase) (same_of_agree hps) h
  exact ⟨agree_of_same (h2 rfl), h1, (h2 rfl).1⟩

/-- C61: the `Claim` that all systems have equally many actions, src/synthesis.cc:1512-1514, does not
fail; when the loop ends and nothing is changed, `revise_actions` succeeds, keeping the actions. -/
theorem C61_size_claim (env : SearchEnv γ α) (B : Finset ℕ) (fuel : ℕ) (g g' : γ) (ps : PSyn α)
    (hps : Agree B ps.insts) (adds dels : Finset ℕ) (st : RevSt γ α)
    (hloop : loopFuel (reviseBody env (env.optimal g)) (fuel + 1)
        ⟨g, ps.insts, ps.insts.map fun _ => adds, ps.insts.map fun _ => dels, true, ∅,
          decide (adds = ∅ ∧ dels = ∅)⟩ = some (some (true, st)))
    (hch : env.changes st.g { ps with insts := st.insts } = (g', none)) :
    reviseActions env (fuel + 1) g ps adds dels =
      some (g', true, { ps with insts := st.insts }, some (env.nlayersSum st.insts)) ∧
    Agree (B ∪ adds) st.insts := by
  have hS := reviseLoop_spec (revInv_start (same_of_agree hps) g adds dels true
    (decide (adds = ∅ ∧ dels = ∅)) ∅) hloop
  have hag := agree_of_same hS
  refine ⟨?_, hag⟩
  unfold reviseActions
  rw [hloop]
  simp only [hch]
  rw [if_pos]
  intro e he
  have h1 := List.of_mem_zip (show (e.1, e.2) ∈ _ from he)
  exact (perm_of_agree hag h1.1 (List.mem_of_mem_tail h1.2)).length_eq

/-! The conflict added by `try_order_synthesis`. -/

theorem verifyLoop_no_actions {env : SearchEnv γ α} {first : Bool} :
    ∀ (l : List (SInst α)) (i : ℕ) (info : StabInfo) (sum : ℕ), info.find = false →
      (verifyLoop env first i l info sum).2.1.livelockActions = info.livelockActions ∧
      (verifyLoop env first i l info sum).2.1.find = false := by
  intro l
  induction l with
  | nil => intro i info sum h; exact ⟨rfl, h⟩
  | cons x l ih =>
    intro i info sum h
    unfold verifyLoop
    generalize (if first then !x.noPartial else x.noPartial || !env.verifyFound) = c
    cases c
    case true => exact ih _ _ _ h
    case false =>
      simp only [Bool.false_eq_true, if_false]
      split
      · obtain ⟨h1, h2⟩ := ih (i + 1) (updInfo info (env.stab i x.actions))
          (sum + if first then 1 else (updInfo info (env.stab i x.actions)).nlayers) (by simpa [updInfo] using h)
        exact ⟨by rw [h1]; simp [updInfo, h], h2⟩
      · simp [updInfo, h]

/-- When `try_order_synthesis` finds a livelock in its result it records the empty conflict, which
excludes every protocol. -/
theorem C17_order_empty_conflict (env : SearchEnv γ α) (fuel : ℕ) (g g1 : γ) (ps p : PSyn α)
    (hl : loopFuel (orderBody env fuel) fuel (g, ps) = some (some (.inr (g1, p))))
    (x : SInst α) (l : List (SInst α)) (hx : p.insts = x :: l) (hd : env.deadlock x.rest = false)
    (hv : (verifySolutions env p {}).1 = false)
    (hlv : (verifySolutions env p {}).2.1.livelockExists = true) :
    tryOrder env fuel g ps = some (.fail (env.addSmall p (env.addConflict [] g1))) := by
  have hno : (verifySolutions env p {}).2.1.livelockActions = [] := by
    have h1 := verifyLoop_no_actions (env := env) (first := true) p.insts 0 {} 0 rfl
    unfold verifySolutions
    split
    · rename_i r heq
      rw [heq] at h1
      exact h1.1
    · rename_i info sum heq
      rw [heq] at h1
      have h2 := verifyLoop_no_actions (env := env) (first := false) p.insts 0 info sum h1.2
      rw [h2.1, h1.1]
  unfold tryOrder
  rw [hl]
  simp only [hx, hd]
  generalize verifySolutions env p {} = r at hv hlv hno ⊢
  obtain ⟨ok, info, n⟩ := r
  simp only at hv hlv hno
  subst hv
  simp [hlv, hno]

/-! Examples -/

/-- A sample search over two systems.  The global state lists the conflicts.  The rest of an
instance lists the candidates and says whether there is a deadlock.  Action 1 resolves all
deadlocks; the second system rejects actions 0 and 1 together; the check accepts the action lists
with 1 and without 0.  Action lists that contain a recorded conflict are rejected. -/
def sampleEnv (verify : Bool) (height : ℕ) : SearchEnv (List (List ℕ)) (List ℕ × Bool) where
  done g := (g, false)
  optimal _ := 0
  setOptimal _ g := g
  conflictCk g l := g.any fun c => c.all (l.contains ·)
  addConflict c g := c :: g
  addSmall ps g := ps.picks :: g
  deadlock r := r.2
  candidates r := r.1
  stab _ l := ⟨l.contains 1 && !l.contains 0, l.contains 0, 1, l⟩
  pickMRV g ps := (g, match ps.insts with
    | x :: _ => x.rest.1.head?
    | [] => none)
  alone g _ i insts adds dels := (g, match insts[i]? with
    | none => .abort
    | some x =>
      let acts := addActs x.actions adds
      let cands := x.rest.1.filter fun a => a ∉ adds ∧ a ∉ dels
      if i = 1 ∧ acts.contains 0 ∧ acts.contains 1 then .fail x
      else if g.any fun c => c.all (acts.contains ·) then .fail x
      else if cands = [] ∧ !acts.contains 1 then .fail x
      else .ok (cands, !acts.contains 1) ∅ dels ∅)
  changes g _ := (g, none)
  base _ := [⟨[5], false, ([0, 2, 1], true)⟩, ⟨[5], false, ([0, 2, 1], true)⟩]
  resetRest b _ := b
  nlayersSum l := l.length
  verifyFound := verify
  maxDepth := 0
  maxHeight := height

/-- The start of the sample search. -/
def samplePs : PSyn (List ℕ × Bool) := ⟨0, [], (sampleEnv true 3).base []⟩

theorem sampleAgree : Agree {5} samplePs.insts := by
  refine ⟨?_, ?_⟩ <;> simp [samplePs, sampleEnv]

/-- The search picks 0 first, has to take it back, and ends with 5 and 1. -/
theorem sampleFound : ∃ g, addStabilization (sampleEnv true 3) 20 [] samplePs = some (.found g [5, 2, 1]) :=
  ⟨_, rfl⟩

example : ∃ l : List ℕ, l.Perm [5, 2, 1] ∧ ((sampleEnv true 3).stab 1 l).ok = true := by
  obtain ⟨g, h⟩ := sampleFound
  obtain ⟨-, -, h3, -⟩ := C17_found_verified (sampleEnv true 3) {5} (fun _ => sampleAgree) 20 [] g samplePs
    sampleAgree _ h
  obtain ⟨l, h1, h2, -⟩ := h3 1 _ rfl (.inr rfl)
  exact ⟨l, h1, h2⟩

/-- An unbounded stack gives the same here; with two slots the search gives up. -/
example : (∃ g, addStabilization (sampleEnv true 0) 20 [] samplePs = some (.found g [5, 2, 1])) ∧
    ∃ g, addStabilization (sampleEnv true 1) 20 [] samplePs = some (.fail g) :=
  ⟨⟨_, rfl⟩, _, rfl⟩

/-- Without verification the same search aborts. -/
example : addStabilization (sampleEnv false 3) 20 [] samplePs = none := rfl

/-- Actions of a system with the states 0 to 3, and the sample search with `stabilization_ck` for that
system as check. -/
def sampleActXn : ℕ → Finset (Fin 4 × Fin 4)
  | 0 => {(0, 3)}
  | 1 => {(3, 2), (2, 0)}
  | 2 => {(3, 0)}
  | 5 => {(0, 1), (1, 0)}
  | _ => ∅

def sampleEnvStab : SearchEnv (List (List ℕ)) (List ℕ × Bool) :=
  { sampleEnv true 3 with
    stab := fun _ l =>
      match stabCk 10 (exDirect .shadow .shadow) ⟨0, true, false⟩ (l.toFinset.biUnion sampleActXn)
          (l.toFinset.biUnion sampleActXn) [] with
      | some (.accept (_, n)) => ⟨true, false, n, []⟩
      | _ => ⟨false, true, 1, []⟩ }

/-- Whether the search found the given actions. -/
def foundIs : Option (AddOut γ) → List ℕ → Bool
  | some (.found _ a), l => decide (a = l)
  | _, _ => false

theorem foundIs_iff {o : Option (AddOut γ)} {l : List ℕ} (h : foundIs o l = true) :
    ∃ g, o = some (.found g l) := by
  unfold foundIs at h
  split at h
  · exact ⟨_, by rw [of_decide_eq_true h]⟩
  · simp at h

theorem sampleFoundStab : ∃ g, addStabilization sampleEnvStab 20 [] samplePs =
    some (.found g [5, 2, 1]) := foundIs_iff (by decide +kernel)

example : ∃ I ⊆ ({0, 1} : Finset (Fin 4)) ∩ Finset.univ,
    SelfStab ([5, 2, 1].toFinset.biUnion sampleActXn) Finset.univ I := by
  obtain ⟨g, h⟩ := sampleFoundStab
  refine C17_found_selfstab sampleEnvStab {5} (fun _ => sampleAgree) 20 [] g samplePs sampleAgree _ h 0 _
    rfl (.inr rfl) (exDirect .shadow .shadow) (by decide) rfl ⟨0, true, false⟩ rfl sampleActXn
    (fun _ => []) 10 (by decide) ?_
  intro l hl
  simp only [sampleEnvStab] at hl
  split at hl
  · rename_i I n heq
    exact ⟨I, n, heq⟩
  · simp at hl

/-- One system only. -/
def samplePs1 : PSyn (List ℕ × Bool) := ⟨0, [], [⟨[5], false, ([0, 2, 1], true)⟩]⟩

/-- `try_order_synthesis` takes all actions, finds a livelock, and records the empty conflict; the search
that would have succeeded then fails at once. -/
theorem C17_order_empty_conflict_sample :
    (∃ g, tryOrder (sampleEnv true 3) 20 [] samplePs1 = some (.fail g) ∧ [] ∈ g ∧
      ∃ g', addStabilization (sampleEnv true 3) 20 g samplePs1 = some (.fail g')) ∧
    ∃ g, addStabilization (sampleEnv true 3) 20 [] samplePs1 = some (.found g [5, 2, 1]) :=
  ⟨⟨_, rfl, by decide, _, rfl⟩, _, rfl⟩

/-- A start for which `try_order_synthesis` succeeds. -/
example : ∃ g, tryOrder (sampleEnv true 3) 20 [] ⟨0, [], [⟨[5], false, ([2, 1], true)⟩]⟩ =
    some (.found g [5, 2, 1]) := ⟨_, rfl⟩

end Verif.Props
