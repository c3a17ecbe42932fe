import Verif.Model.Loop
import Verif.Model.Conflict

/-!
Model of the backtracking search: `verify_solutions`, `AddStabilization`, `try_order_synthesis`
(src/search.cc:22-207,260-308) and `revise_actions`, `pick_action` (src/synthesis.cc:1360-1536).

The search depends on many things that are left open here: candidate orders, random numbers, learned
conflicts, messages from other processes.  They are collected in a state of type `γ`, and the parts
of the program that use them are the functions of a `SearchEnv`.  A theorem about all environments
covers every choice they can make.  A failed `Claim` and an access outside a table are the result
`none`.
-/

namespace Verif.Model

universe u v

/-- The part of `PartialSynthesis` that belongs to one system, src/synthesis.hh:122-152: the chosen
actions, whether the system is only verified, and the rest (candidates, formulas, ranked deadlocks,
layer count). -/
structure SInst (α : Type v) where
  actions : List ℕ
  noPartial : Bool
  rest : α

/-- `PartialSynthesis`, src/synthesis.hh:122-232; `insts` lists `(*this)[i]`.  Simplified: the levels
and the picks, which are the same in all instances, are kept once; `failed_bt_level` is left out. -/
structure PSyn (α : Type v) where
  level : ℕ
  picks : List ℕ
  insts : List (SInst α)

/-- What `stabilization_ck` tells: the verdict, whether a livelock was found, the number of layers and
the actions of the livelock. -/
structure StabRes where
  ok : Bool
  livelock : Bool
  nlayers : ℕ
  cycleActs : List ℕ

/-- `StabilizationCkInfo`, src/stabilization.hh:29-45. -/
structure StabInfo where
  livelockExists : Bool := false
  find : Bool := false
  livelockActions : List ℕ := []
  nlayers : ℕ := 0

/-- How `revise_actions_alone` ends: failed `Claim`, `return false` (leaving the instance in some
state), or `return true` with new contents of `adds`, `dels`, `rejs`. -/
inductive AloneRes (α : Type v) where
  | abort
  | fail (inst : SInst α)
  | ok (rest : α) (adds dels rejs : Finset ℕ)

/-- The parts of the search that are not modelled. -/
structure SearchEnv (γ : Type u) (α : Type v) where
  /-- `synctx.done_ck()` -/
  done : γ → γ × Bool
  /-- `synctx.optimal_nlayers_sum` -/
  optimal : γ → ℕ
  /-- assignment to `synctx.optimal_nlayers_sum` -/
  setOptimal : ℕ → γ → γ
  /-- `synctx.conflicts.conflict_ck` -/
  conflictCk : γ → List ℕ → Bool
  /-- `synctx.conflicts.add_conflict` -/
  addConflict : List ℕ → γ → γ
  /-- `add_small_conflict_set(picks)`, src/synthesis.cc:835-887 -/
  addSmall : PSyn α → γ → γ
  /-- `deadlockPF.sat_ck()` -/
  deadlock : α → Bool
  /-- `candidates` -/
  candidates : α → List ℕ
  /-- `stabilization_ck` for system `i` and the given actions -/
  stab : ℕ → List ℕ → StabRes
  /-- `PickActionMRV` -/
  pickMRV : γ → PSyn α → γ × Option ℕ
  /-- the layer bookkeeping at src/synthesis.cc:1387-1404 and `revise_actions_alone`, src/synthesis.cc:1024-1358,
  up to the effect on `actions`; the arguments are `max_nlayers_sum`, the number of the system, all
  instances, `adds` and `dels` -/
  alone : γ → ℕ → ℕ → List (SInst α) → Finset ℕ → Finset ℕ → γ × AloneRes α
  /-- `useless_picks` and the choice of the new picks, src/synthesis.cc:1436-1471 -/
  changes : γ → PSyn α → γ × Option (List ℕ)
  /-- the instances of `ctx->base_partial` -/
  base : γ → List (SInst α)
  /-- the rest of an instance after src/synthesis.cc:1475-1490, from the base instance and itself -/
  resetRest : α → α → α
  /-- the sum of the fields `lo_nlayers`, src/synthesis.cc:1517-1519 -/
  nlayersSum : List (SInst α) → ℕ
  /-- `opt.verify_found` -/
  verifyFound : Bool
  /-- `opt.max_depth` -/
  maxDepth : ℕ
  /-- `opt.max_height` -/
  maxHeight : ℕ

section
variable {γ : Type u} {α : Type v}

/-- The effect of `revise_actions_alone` on `actions`, src/synthesis.cc:1063-1064,1101-1102: each added
action is removed and appended. -/
def addActs (l : List ℕ) (s : Finset ℕ) : List ℕ := (arr s).foldl (fun l a => l.erase a ++ [a]) l

/-- The variables of the loop of `revise_actions`, src/synthesis.cc:1364-1376. -/
structure RevSt (γ : Type u) (α : Type v) where
  g : γ
  insts : List (SInst α)
  adds : List (Finset ℕ)
  dels : List (Finset ℕ)
  keep : Bool
  common : Finset ℕ
  force : Bool

/-- The body of the inner loop of `revise_actions`, src/synthesis.cc:1382-1427; the boolean is `false`
for `return false`. -/
def reviseStep (env : SearchEnv γ α) (maxSum i : ℕ) (st : RevSt γ α) :
    Option (Bool × RevSt γ α) :=
  match st.insts[i]?, st.adds[i]?, st.dels[i]? with
  | some inst, some a, some d =>
    if st.force = false ∧ a = ∅ ∧ d = ∅ then some (true, st)
    else
      match env.alone st.g maxSum i st.insts a d with
      | (_, .abort) => none
      | (g, .fail inst') => some (false, { st with g := g, insts := st.insts.set i inst' })
      | (g, .ok rest adds dels rejs) =>
        if rejs ⊆ dels then
          let insts := st.insts.set i ⟨addActs inst.actions a, inst.noPartial, rest⟩
          let common := if i = 0 then dels else st.common ∩ dels
          let allDels := st.dels.set i ∅
          let allAdds := st.adds.set i adds
          if adds ≠ ∅ ∨ rejs ≠ ∅ then
            some (true, ⟨g, insts, allAdds.map (· ∪ adds), allDels.map (· ∪ rejs), true, common, false⟩)
          else some (true, ⟨g, insts, allAdds, allDels, st.keep, common, st.force⟩)
        else none
  | _, _, _ => none

/-- The inner loop of `revise_actions` from the given indices on, src/synthesis.cc:1381-1428. -/
def revisePass (env : SearchEnv γ α) (maxSum : ℕ) : List ℕ → RevSt γ α → Option (Bool × RevSt γ α)
  | [], st => some (true, st)
  | i :: l, st =>
    if st.keep = true ∧ st.common = ∅ then some (true, st)
    else
      match reviseStep env maxSum i st with
      | none => none
      | some (false, st') => some (false, st')
      | some (true, st') => revisePass env maxSum l st'

/-- One round of the outer loop of `revise_actions`, src/synthesis.cc:1373-1435. -/
def reviseBody (env : SearchEnv γ α) (maxSum : ℕ) (st : RevSt γ α) :
    Option (Bool × RevSt γ α) ⊕ RevSt γ α :=
  match revisePass env maxSum (List.range st.insts.length) { st with keep := false, common := ∅ } with
  | none => .inl none
  | some (false, st') => .inl (some (false, st'))
  | some (true, st') =>
    let st' := if st'.common = ∅ then st' else { st' with dels := st'.dels.map (· ∪ st'.common) }
    if st'.keep then .inr st' else .inl (some (true, st'))

/-- Going back to the base instance, src/synthesis.cc:1475-1490. -/
def resetInst (env : SearchEnv γ α) (b x : SInst α) : SInst α :=
  ⟨b.actions, x.noPartial, env.resetRest b.rest x.rest⟩

/-- `PartialSynthesis::revise_actions`, src/synthesis.cc:1360-1522: the new state of everything, the
result, the new partial solution, and `*ret_nlayers_sum` (`none`: not written).  `fuel` bounds the
loop and the recursive call. -/
def reviseActions (env : SearchEnv γ α) : ℕ → γ → PSyn α → Finset ℕ → Finset ℕ →
    Option (γ × Bool × PSyn α × Option ℕ)
  | 0, _, _, _, _ => none
  | fuel + 1, g, ps, adds, dels =>
    match loopFuel (reviseBody env (env.optimal g)) (fuel + 1)
        ⟨g, ps.insts, ps.insts.map fun _ => adds, ps.insts.map fun _ => dels, true, ∅,
          decide (adds = ∅ ∧ dels = ∅)⟩ with
    | none => none
    | some none => none
    | some (some (false, st)) => some (st.g, false, { ps with insts := st.insts }, none)
    | some (some (true, st)) =>
      let ps := { ps with insts := st.insts }
      match env.changes st.g ps with
      | (g, some newpicks) =>
        let base := env.base g
        if ps.insts.length ≤ base.length then
          reviseActions env fuel (env.addConflict ps.picks g)
            { ps with
              picks := newpicks
              insts := List.zipWith (resetInst env) base ps.insts }
            newpicks.toFinset ∅
        else none
      | (g, none) =>
        if ∀ e ∈ ps.insts.zip ps.insts.tail, e.1.actions.length = e.2.actions.length then
          some (g, true, ps, some (env.nlayersSum ps.insts))
        else none

/-- `PartialSynthesis::pick_action`, src/synthesis.cc:1524-1536. -/
def pickAction (env : SearchEnv γ α) (fuel : ℕ) (g : γ) (ps : PSyn α) (a : ℕ) :
    Option (γ × Bool × PSyn α) :=
  match reviseActions env fuel g { ps with picks := ps.picks ++ [a] } {a} ∅ with
  | none => none
  | some (g, true, ps, _) => some (g, true, ps)
  | some (g, false, ps, _) => some (env.addSmall ps g, false, ps)

/-- What a call of `stabilization_ck` writes to `*info`, src/stabilization.cc:358,371-380.  Simplified:
the layer count is also written when the check fails early; it is not used then. -/
def updInfo (info : StabInfo) (r : StabRes) : StabInfo :=
  { info with
    nlayers := r.nlayers
    livelockExists := info.livelockExists || r.livelock
    livelockActions := if r.livelock ∧ info.find then r.cycleActs else info.livelockActions }

/-- One of the two loops of `verify_solutions`, src/search.cc:27-48 (`first`) and 49-62, over the
instances from number `i` on. -/
def verifyLoop (env : SearchEnv γ α) (first : Bool) :
    ℕ → List (SInst α) → StabInfo → ℕ → Bool × StabInfo × ℕ
  | _, [], info, sum => (true, info, sum)
  | i, x :: l, info, sum =>
    if (if first then !x.noPartial else x.noPartial || !env.verifyFound) then
      verifyLoop env first (i + 1) l info sum
    else
      let r := env.stab i x.actions
      let info := updInfo info r
      if r.ok then verifyLoop env first (i + 1) l info (sum + if first then 1 else info.nlayers)
      else (false, info, sum)

/-- `verify_solutions`, src/search.cc:22-64: result, `*info` and `*ret_nlayers_sum`. -/
def verifySolutions (env : SearchEnv γ α) (ps : PSyn α) (info : StabInfo) : Bool × StabInfo × ℕ :=
  match verifyLoop env true 0 ps.insts info 0 with
  | (false, r) => (false, r)
  | (true, info, sum) => verifyLoop env false 0 ps.insts info sum

/-- `deadlocks_ck`, src/synthesis.hh:206-212. -/
def deadlocksCk (env : SearchEnv γ α) (ps : PSyn α) : Bool := ps.insts.any fun x => env.deadlock x.rest

/-- `candidates_ck`, src/synthesis.hh:179-185. -/
def candidatesCk (env : SearchEnv γ α) (ps : PSyn α) : Bool :=
  ps.insts.any fun x => !(env.candidates x.rest).isEmpty

/-- The variables of `AddStabilization`, src/search.cc:78-86. -/
structure AddSt (γ : Type u) (α : Type v) where
  g : γ
  stack : List (PSyn α)
  idx : ℕ
  nsum : ℕ

/-- `decmod(i, 1, n)`. -/
def decmod (i n : ℕ) : ℕ := (i + n - 1) % n

/-- One round of the backtracking loop, src/search.cc:175-193; the second component of the state is
`actidx`.  The result `.inl (.inl g)` is `return false`, `.inl (.inr st)` the end of the loop. -/
def btBody (env : SearchEnv γ α) (fuel : ℕ) (st : AddSt γ α × ℕ) :
    Option (γ ⊕ AddSt γ α) ⊕ (AddSt γ α × ℕ) :=
  match st.1.stack[st.1.idx]? with
  | none => .inl none
  | some ps =>
    match reviseActions env fuel st.1.g ps ∅ {st.2} with
    | none => .inl none
    | some (g, true, ps, n) =>
      .inl (some (.inr ⟨g, st.1.stack.set st.1.idx ps, st.1.idx, n.getD st.1.nsum⟩))
    | some (g, false, ps, n) =>
      let g := env.addSmall ps g
      let stack := st.1.stack.set st.1.idx ps
      let idx := decmod st.1.idx stack.length
      match stack[idx]? with
      | none => .inl none
      | some prev =>
        if ps.level ≤ prev.level then .inl (some (.inl g))
        else
          match env.done g with
          | (g, true) => .inl (some (.inl g))
          | (g, false) =>
            match ps.picks.getLast? with
            | none => .inl none
            | some a => .inr (⟨g, stack, idx, n.getD st.1.nsum⟩, a)

/-- Choosing the slot for the next level, src/search.cc:150-158: the stack and `next_idx`. -/
def nextSlot (env : SearchEnv γ α) (stack : List (PSyn α)) (idx : ℕ) : List (PSyn α) × ℕ :=
  if env.maxHeight = 0 ∨ stack.length ≤ env.maxHeight then
    (if idx + 1 = stack.length then stack ++ [⟨0, [], []⟩] else stack, idx + 1)
  else (stack, (idx + 1) % stack.length)

/-- How a round of `AddStabilization` ends. -/
inductive AddOut (γ : Type u) where
  | fail (g : γ)
  | found (g : γ) (actions : List ℕ)

/-- The end of `AddStabilization`, src/search.cc:199-207. -/
def addFinish (env : SearchEnv γ α) (g : γ) (ps : PSyn α) (nsum : ℕ) : Option (AddOut γ) :=
  if deadlocksCk env ps then none
  else
    match ps.insts with
    | [] => none
    | x :: _ => if 0 < nsum then some (.found (env.setOptimal nsum g) x.actions) else none

/-- From picking the action to the end of the round, src/search.cc:142-198. -/
def addPick (env : SearchEnv γ α) (fuel : ℕ) (st : AddSt γ α) (ps : PSyn α) (oldOpt : ℕ) :
    Option (AddOut γ) ⊕ AddSt γ α :=
  match env.pickMRV st.g ps with
  | (g, none) => .inl (some (.fail (env.addSmall ps g)))
  | (g, some a) =>
    let slot := nextSlot env st.stack st.idx
    match pickAction env fuel g { ps with level := ps.level + 1 } a with
    | none => .inl none
    | some (g, ok, next) =>
      if slot.2 < slot.1.length then
        let stack := slot.1.set slot.2 next
        if ok then .inr ⟨g, stack, slot.2, st.nsum⟩
        else
          match env.done g with
          | (g, true) => .inl (some (.fail g))
          | (g, false) =>
            match loopFuel (btBody env fuel) fuel (⟨g, stack, st.idx, st.nsum⟩, a) with
            | none => .inl none
            | some none => .inl none
            | some (some (.inl g)) => .inl (some (.fail g))
            | some (some (.inr st)) =>
              if 0 < oldOpt ∧ ¬ st.nsum < oldOpt then .inl none else .inr st
      else .inl none

/-- One round of the loop of `AddStabilization`, src/search.cc:93-198. -/
def addBody (env : SearchEnv γ α) (fuel : ℕ) (st : AddSt γ α) : Option (AddOut γ) ⊕ AddSt γ α :=
  let oldOpt := env.optimal st.g
  match st.stack[st.idx]? with
  | none => .inl none
  | some ps =>
    match env.done st.g with
    | (g, true) => .inl (some (.fail g))
    | (g, false) =>
      if 0 < env.maxDepth ∧ env.maxDepth ≤ ps.level then .inl (some (.fail g))
      else if deadlocksCk env ps then addPick env fuel { st with g := g } ps oldOpt
      else
        match verifySolutions env ps {} with
        | (ok, info, nsum) =>
          if ok ∧ (env.optimal g = 0 ∨ nsum < env.optimal g) then .inl (addFinish env g ps nsum)
          else if ok ∨ info.livelockExists then
            let g := env.addSmall ps g
            let g := if info.livelockExists ∧ info.find then env.addConflict info.livelockActions g else g
            let idx := decmod st.idx st.stack.length
            match st.stack[idx]? with
            | none => .inl none
            | some prev =>
              if ps.level ≤ prev.level then .inl (some (.fail g)) else .inr ⟨g, st.stack, idx, nsum⟩
          else if candidatesCk env ps = false then .inl (some (.fail g))
          else addPick env fuel { st with g := g, nsum := nsum } ps oldOpt

/-- `AddStabilization(ret_actions, base_partial, opt)`, src/search.cc:73-207. -/
def addStabilization (env : SearchEnv γ α) (fuel : ℕ) (g : γ) (basePs : PSyn α) : Option (AddOut γ) :=
  match basePs.insts with
  | [] => none
  | x :: _ =>
    if env.conflictCk g x.actions then some (.fail (env.addConflict [] g))
    else (loopFuel (addBody env fuel) fuel ⟨g, [{ basePs with level := 0 }], 0, 0⟩).bind id

/-- The loop of `try_order_synthesis`, src/search.cc:270-294.  The action tried is the first candidate
of the last instance that is not only verified. -/
def orderBody (env : SearchEnv γ α) (fuel : ℕ) (st : γ × PSyn α) :
    Option (γ ⊕ (γ × PSyn α)) ⊕ (γ × PSyn α) :=
  if candidatesCk env st.2 = false then .inl (some (.inr st))
  else
    match (st.2.insts.filter fun x => !x.noPartial).getLast? with
    | none => .inl none
    | some x =>
      match env.candidates x.rest with
      | [] => .inl none
      | a :: _ =>
        match pickAction env fuel st.1 st.2 a with
        | none => .inl none
        | some (g, true, next) =>
          match env.done g with
          | (g, true) => .inl (some (.inl g))
          | (g, false) => .inr (g, next)
        | some (g, false, _) =>
          match env.done g with
          | (g, true) => .inl (some (.inl g))
          | (g, false) =>
            match reviseActions env fuel g st.2 ∅ {a} with
            | none => .inl none
            | some (g, false, _, _) => .inl (some (.inl g))
            | some (g, true, ps, _) =>
              match env.done g with
              | (g, true) => .inl (some (.inl g))
              | (g, false) => .inr (g, ps)

/-- `try_order_synthesis`, src/search.cc:260-308. -/
def tryOrder (env : SearchEnv γ α) (fuel : ℕ) (g : γ) (ps : PSyn α) : Option (AddOut γ) :=
  match loopFuel (orderBody env fuel) fuel (g, ps) with
  | none => none
  | some none => none
  | some (some (.inl g)) => some (.fail g)
  | some (some (.inr (g, ps))) =>
    match ps.insts with
    | [] => none
    | x :: _ =>
      if env.deadlock x.rest then none
      else
        match verifySolutions env ps {} with
        | (true, _) => some (.found g x.actions)
        | (false, info, _) =>
          let g := if info.livelockExists then env.addConflict info.livelockActions g else g
          some (.fail (env.addSmall ps g))

end

end Verif.Model
