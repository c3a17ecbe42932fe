import Verif.Proofs.Verify
import Verif.Props.Conflict

/-!
# Property C108: verifying files

`verifyTask` is the task `VerifyTask` (src/search.cc:653-698, 782-797), see Model/Verify.  `rounds` is any assignment
of the files to threads, in any order and with any answers of `done_ck`; `order` is the order in which the threads
merge their conflicts.
-/

set_option linter.unusedSectionVars false

namespace Verif.Props
open Verif.Spec Verif.Model Verif.Proofs

variable {σ τ : ℕ → Type} [∀ i, Fintype (σ i)] [∀ i, DecidableEq (σ i)] [∀ i, DecidableEq (τ i)]

/-- What is assumed: no probabilistic systems, the general check for cycles, and conflicts as they are in a file. -/
structure VSetting (opt : VOpt σ τ) (file : CFam) : Prop where
  files : ∀ i f, opt.files i = some f → VFileOk f opt.stab (opt.fuel i)
  nodup : file.sets.Nodup
  anti : ∀ a ∈ file.sets, ∀ c ∈ file.sets, a ⊆ c → a = c

/-- Every file is taken once, by a thread that takes part in the merging. -/
structure VRounds (opt : VOpt σ τ) (rounds : List (ℕ × ℕ × Bool)) (order : List ℕ) : Prop where
  files : (rounds.map fun x => x.2.1).Perm (List.range opt.count)
  threads : ∀ x ∈ rounds, x.1 ∈ order

theorem trim_sub (k : ℕ) (fam : CFam) : (trim k fam).sets.Sublist fam.sets := by
  unfold trim
  split
  · exact List.Sublist.refl _
  · exact List.filter_sublist

theorem trim_mem' {k : ℕ} {fam : CFam} {c : Finset ℕ} :
    c ∈ (trim k fam).sets ↔ c ∈ fam.sets ∧ (k = 0 ∨ c.card ≤ k) := by
  unfold trim
  split
  · rename_i h; simp [h]
  · rename_i h; simp [h]

theorem verify_all {opt : VOpt σ τ} {file : CFam} (h : VSetting opt file) (rounds : List (ℕ × ℕ × Bool))
    (order : List ℕ) :
    ∃ s, VInv opt (trim opt.maxConflictSz file) (rounds.reverse ++ []) s ∧
      verifyTask opt file rounds order = some (s.found, s.ret, trim opt.maxConflictSz
        (order.foldl (fun sh p => addFamily (fun a b => opt.le a b = true) (s.fams p) sh)
          (trim opt.maxConflictSz file))) := by
  have ha : Anti (trim opt.maxConflictSz file).sets :=
    (Anti.mk h.nodup h.anti).sublist (trim_sub _ _)
  obtain ⟨s, e, hI⟩ := verifyRounds_inv h.files (fam0 := trim opt.maxConflictSz file) rounds []
    ⟨false, [], fun _ => trim opt.maxConflictSz file⟩
    ⟨by simp, by simp, by simp, fun _ => ha, fun _ _ h => h, fun _ _ h => .inl h, by simp⟩
  refine ⟨s, hI, ?_⟩
  unfold verifyTask
  simp only [e, Option.map_some]

/-- **C108, the verdict.**  No `Claim` fails.  `solution_found` is set if and only if the check `stabilization_ck`
accepts one of the files that were not left out because of a signal; then `ret_actions` are the actions of such a
file, and its protocol self-stabilizes to a part of the invariant.  If it is not set then `ret_actions` is empty. -/
theorem C108_verdict {opt : VOpt σ τ} {file : CFam} (h : VSetting opt file) (rounds : List (ℕ × ℕ × Bool))
    (order : List ℕ) : ∃ found ret fam, verifyTask opt file rounds order = some (found, ret, fam) ∧
      (found = true ↔ ∃ x ∈ rounds, x.2.2 = false ∧ ∃ f, opt.files x.2.1 = some f ∧
        VAccepts f opt.stab opt.sync opt.light (opt.fuel x.2.1)) ∧
      (found = true → ∃ x ∈ rounds, ∃ f, opt.files x.2.1 = some f ∧ ret = f.actions ∧
        ∃ I, I ⊆ f.sys.invariant ∩ f.sys.closedAssume ∧
          SelfStab (f.rel opt.sync opt.light) f.sys.closedAssume I) ∧
      (found = false → ret = []) := by
  obtain ⟨s, hI, e⟩ := verify_all h rounds order
  refine ⟨_, _, _, e, ⟨fun hf => ?_, ?_⟩, fun hf => ?_, hI.none⟩
  · obtain ⟨x, hx, h1, f, h2, h3, -⟩ := hI.found hf
    exact ⟨x, by simpa using hx, h1, f, h2, h3⟩
  · rintro ⟨x, hx, h1, f, h2, h3⟩
    exact hI.all x (by simpa using hx) h1 f h2 h3
  · obtain ⟨x, hx, -, f, h2, h3, h4⟩ := hI.found hf
    exact ⟨x, by simpa using hx, f, h2, h4, h3.stab (h.files _ f h2)⟩

/-- **C108, one file.**  If there is one file, and no signal, the answer is that of the check. -/
theorem C108_one_file {opt : VOpt σ τ} {file : CFam} (h : VSetting opt file) (h1 : opt.count = 1)
    {rounds : List (ℕ × ℕ × Bool)} {order : List ℕ} (hr : VRounds opt rounds order)
    (hd : ∀ x ∈ rounds, x.2.2 = false) : ∃ found ret fam, verifyTask opt file rounds order = some (found, ret, fam) ∧
      (found = true ↔ ∃ f, opt.files 0 = some f ∧ VAccepts f opt.stab opt.sync opt.light (opt.fuel 0)) := by
  obtain ⟨found, ret, fam, e, hf, -⟩ := C108_verdict h rounds order
  refine ⟨found, ret, fam, e, hf.trans ?_⟩
  have hp := hr.files
  rw [h1] at hp
  have hmem : ∀ i, i ∈ (rounds.map fun x => x.2.1) ↔ i = 0 := by
    intro i; rw [hp.mem_iff]; simp
  constructor
  · rintro ⟨x, hx, -, f, h2, h3⟩
    have h0 : x.2.1 = 0 := (hmem _).1 (List.mem_map_of_mem hx)
    rw [← h0]
    exact ⟨f, h2, h3⟩
  · rintro ⟨f, h2, h3⟩
    obtain ⟨x, hx, h0⟩ := List.mem_map.1 ((hmem 0).2 rfl)
    refine ⟨x, hx, hd x hx, ?_⟩
    rw [h0]
    exact ⟨f, h2, h3⟩

/-- **C108, the conflicts (proved part).**  Of the conflicts that are written: each one is from the file of conflicts
or made of actions of one of the verified files, and then no protocol with these actions stabilizes in the system of
that file (and a file for conflicts was given); none contains another one and none is larger than `max_conflict_sz`;
every conflict of the file of conflicts contains one of them; and for every verified file with which only a livelock
is wrong, some conflict consists of actions of the file (both as far as `max_conflict_sz` allows).

Full statement: also for synchronous steps.  Then a conflict may exclude solutions (`C108_synchronous`). -/
theorem C108_conflicts_partial {opt : VOpt σ τ} {file : CFam} (h : VSetting opt file) (hs : opt.sync = false)
    {rounds : List (ℕ × ℕ × Bool)} {order : List ℕ} (hr : VRounds opt rounds order) :
    ∃ found ret fam, verifyTask opt file rounds order = some (found, ret, fam) ∧
      (∀ c ∈ fam.sets, c ∈ file.sets ∨ ∃ i < opt.count, ∃ f, opt.files i = some f ∧ opt.light = false ∧
        c ⊆ f.actions.toFinset ∧ Excludes f.act f.sys.closedAssume f.sys.invariant c) ∧
      fam.sets.Nodup ∧ (∀ a ∈ fam.sets, ∀ c ∈ fam.sets, a ⊆ c → a = c) ∧
      (0 < opt.maxConflictSz → ∀ c ∈ fam.sets, c.card ≤ opt.maxConflictSz) ∧
      (∀ b ∈ file.sets, (opt.maxConflictSz = 0 ∨ b.card ≤ opt.maxConflictSz) → ∃ c ∈ fam.sets, c ⊆ b) ∧
      ∀ x ∈ rounds, x.2.2 = false → ∀ f, opt.files x.2.1 = some f → opt.light = false → opt.stab.maxNlayers = 0 →
        (opt.maxConflictSz = 0 ∨ f.actions.toFinset.card ≤ opt.maxConflictSz) →
        Livelocked (f.actions.toFinset.biUnion f.act) f.sys.closedAssume f.sys.invariant →
        ∃ c ∈ fam.sets, c ⊆ f.actions.toFinset := by
  obtain ⟨s, hI, e⟩ := verify_all h rounds order
  have ha : Anti (trim opt.maxConflictSz file).sets := (Anti.mk h.nodup h.anti).sublist (trim_sub _ _)
  obtain ⟨m1, m2, m3⟩ := mergeAll (r := fun a b => opt.le a b = true) (fams := s.fams) order _ ha
  have hA := m1.sublist (trim_sub opt.maxConflictSz _)
  have hcount : ∀ x ∈ rounds, x.2.1 < opt.count := by
    intro x hx
    have := hr.files.mem_iff.1 (List.mem_map_of_mem (f := fun x : ℕ × ℕ × Bool => x.2.1) hx)
    simpa using this
  have hknow : ∀ b : Finset ℕ, (opt.maxConflictSz = 0 ∨ b.card ≤ opt.maxConflictSz) →
      Knows (order.foldl (fun sh p => addFamily (fun a b => opt.le a b = true) (s.fams p) sh)
          (trim opt.maxConflictSz file)) b →
      ∃ c ∈ (trim opt.maxConflictSz (order.foldl (fun sh p => addFamily (fun a b => opt.le a b = true) (s.fams p) sh)
          (trim opt.maxConflictSz file))).sets, c ⊆ b := by
    rintro b hz ⟨c, hc, hcb⟩
    exact ⟨c, trim_mem'.2 ⟨hc, hz.imp id fun h => (Finset.card_le_card hcb).trans h⟩, hcb⟩
  refine ⟨_, _, _, e, fun c hc => ?_, hA.nodup, hA.anti, fun h0 c hc => (trim_mem'.1 hc).2.resolve_left (by omega),
    fun b hb hz => hknow b hz ((m2 b).2 (.inl ⟨b, trim_mem'.2 ⟨hb, hz⟩, Finset.Subset.refl _⟩)),
    fun x hx hd f hf hl h0 hz hL => hknow _ hz ((m2 _).2 (.inr ⟨x.1, hr.threads x hx, ?_⟩))⟩
  · have hc' : c ∈ (trim opt.maxConflictSz file).sets ∨ ∃ x ∈ rounds, LearnedFrom opt x.2.1 c := by
      rcases m3 c (trim_mem'.1 hc).1 with h | ⟨p, hp, h⟩
      · exact .inl h
      · rcases hI.origin p c h with h | ⟨x, hx, h⟩
        · exact .inl h
        · exact .inr ⟨x, by simpa using hx, h⟩
    rcases hc' with h | ⟨x, hx, f, h1, h2, h3, h4⟩
    · exact .inl (trim_mem'.1 h).1
    · exact .inr ⟨_, hcount x hx, f, h1, h2, h3, h4 hs⟩
  · refine hI.learn x (by simpa using hx) hd f hf hl h0 ?_
    rw [hs, hl]
    exact hL

/-! ### A concrete case -/

/-- Two processes with one bit each; the states where the bits agree are legitimate. -/
def pairSys : Sys (Fin 2 × Fin 2) Unit where
  invariant := {(0, 0), (1, 1)}
  closedAssume := Finset.univ
  shadowXn := ∅
  identXn := Finset.univ.filter fun e => e.1 = e.2
  proj := fun _ => ()
  shadowPuppet := false
  probabilistic := false
  style := .closed
  scope := .direct
  behav := .silent

/-- Five actions; 0, 2 and 4 are those of the first process, 1 and 3 those of the second one; 4 undoes 0. -/
def pairAct : ℕ → Finset ((Fin 2 × Fin 2) × (Fin 2 × Fin 2))
  | 0 => {((0, 1), (1, 1))}
  | 1 => {((0, 1), (0, 0))}
  | 2 => {((1, 0), (0, 0))}
  | 3 => {((1, 0), (1, 1))}
  | 4 => {((1, 1), (0, 1))}
  | _ => ∅

def pairStates : List (Fin 2 × Fin 2) := [(0, 0), (0, 1), (1, 0), (1, 1)]

/-- What `pick_pre` picks: the first one in a list. -/
def pairPick (S : Finset (Fin 2 × Fin 2)) : Option (Fin 2 × Fin 2) := pairStates.find? (· ∈ S)

/-- A file with the given actions.  In a synchronous step both processes move wherever both can. -/
def pairFile (actions : List ℕ) (sync : Finset ((Fin 2 × Fin 2) × (Fin 2 × Fin 2))) : VFile (Fin 2 × Fin 2) Unit where
  sys := pairSys
  direct := actions.toFinset.biUnion pairAct
  directParts := []
  act := pairAct
  actParts := []
  actions := actions
  sync := sync
  pick := pairPick

theorem pair_ok (actions : List ℕ) (sync : Finset ((Fin 2 × Fin 2) × (Fin 2 × Fin 2))) :
    VFileOk (pairFile actions sync) ⟨0, false, false⟩ 12 := by
  refine ⟨fun e => by simp [pairFile, pairSys], rfl, rfl, by decide, fun S hS => ?_⟩
  obtain ⟨s, hs⟩ := hS
  simp only [pairFile, pairPick]
  cases hf : pairStates.find? (· ∈ S) with
  | none =>
    rw [List.find?_eq_none] at hf
    exact absurd hs (by simpa using hf s ((by decide : ∀ s, s ∈ pairStates) s))
  | some t => exact ⟨t, by simpa using List.find?_some hf, rfl⟩

/-- Three files: a protocol with a livelock, one that cannot be read, and a stabilizing one. -/
def pairOpt (sync light : Bool) (f0 : VFile (Fin 2 × Fin 2) Unit) : VOpt (fun _ => Fin 2 × Fin 2) (fun _ => Unit) where
  stab := ⟨0, false, false⟩
  sync := sync
  light := light
  le a b := decide (a.card ≤ b.card)
  maxConflictSz := 0
  count := 3
  files i := if i = 0 then some f0 else if i = 2 then some (pairFile [0, 2] (pairAct 0 ∪ pairAct 2)) else none
  fuel _ := 12

theorem pair_setting (sync light : Bool) (actions : List ℕ) (sxn : Finset ((Fin 2 × Fin 2) × (Fin 2 × Fin 2)))
    (file : CFam) (h1 : file.sets.Nodup) (h2 : ∀ a ∈ file.sets, ∀ c ∈ file.sets, a ⊆ c → a = c) :
    VSetting (pairOpt sync light (pairFile actions sxn)) file := by
  refine ⟨fun i f hf => ?_, h1, h2⟩
  simp only [pairOpt] at hf
  split at hf
  · cases hf; exact pair_ok _ _
  · split at hf
    · cases hf; exact pair_ok _ _
    · cases hf

/-- Two threads. -/
def pairRounds : List (ℕ × ℕ × Bool) := [(0, 0, false), (1, 2, false), (0, 1, false)]

example : VRounds (pairOpt false false (pairFile [0, 1, 2, 4] ∅)) pairRounds [1, 0] :=
  ⟨by decide, by decide⟩

example : Livelocked (([0, 1, 2, 4] : List ℕ).toFinset.biUnion pairAct) pairSys.closedAssume pairSys.invariant :=
  ⟨by decide, by unfold Step; decide, fun _ _ _ _ => by simp [pairSys], by unfold Deadlock Step; decide,
    (0, 1), by decide, by decide, .tail (.single (b := (1, 1)) (by unfold Step; decide)) (by unfold Step; decide)⟩

/-- The livelock of the first file needs the actions 0 and 4. -/
example : (verifyTask (pairOpt false false (pairFile [0, 1, 2, 4] ∅)) ⟨[{7, 8}], [], false, ∅⟩ pairRounds [1, 0]).map
    (fun r => (r.1, r.2.1, r.2.2.sets)) = some (true, [0, 2], [{0, 4}, {7, 8}]) := by decide +kernel

example : VSetting (pairOpt false false (pairFile [0, 1, 2, 4] ∅)) ⟨[{7, 8}], [], false, ∅⟩ :=
  pair_setting _ _ _ _ _ (by decide) (by decide)

/-- Without a file for conflicts nothing is learned. -/
example : (verifyTask (pairOpt false true (pairFile [0, 1, 2, 4] ∅)) ⟨[{7, 8}], [], false, ∅⟩ pairRounds [1, 0]).map
    (fun r => (r.1, r.2.1, r.2.2.sets)) = some (true, [0, 2], [{7, 8}]) := by decide +kernel

/-- **The message is about any file.**  The first file has a livelock and the second one cannot be read, but the task
answers that "the protocol" is self-stabilizing (src/main.cc:62-65). -/
theorem C108_any_file : ∃ opt : VOpt (fun _ => Fin 2 × Fin 2) (fun _ => Unit), ∃ rounds order f0,
    VRounds opt rounds order ∧ opt.files 0 = some f0 ∧ opt.files 1 = none ∧
    verifyFile (opt.fuel 0) opt.stab opt.sync opt.light f0 = some (false, some {0, 4}) ∧
    (verifyTask opt CFam.empty rounds order).map (fun r => r.1) = some true :=
  ⟨pairOpt false false (pairFile [0, 1, 2, 4] ∅), pairRounds, [1, 0], pairFile [0, 1, 2, 4] ∅, ⟨by decide, by decide⟩, rfl,
    rfl, by decide +kernel, by decide +kernel⟩

/-- The synchronous relation of the actions 0 to 3: in both illegitimate states both processes move. -/
def pairBoth : Finset ((Fin 2 × Fin 2) × (Fin 2 × Fin 2)) := {((0, 1), (1, 0)), ((1, 0), (0, 1))}

/-- **Synchronous steps.**  No single action makes the steps of the livelock, so the empty set of actions is learned.
It is part of every protocol, also of the one in the last file, which stabilizes: the conflicts that are written
exclude every solution. -/
theorem C108_synchronous :
    VSetting (pairOpt true false (pairFile [0, 1, 2, 3] pairBoth)) CFam.empty ∧
    (verifyTask (pairOpt true false (pairFile [0, 1, 2, 3] pairBoth)) CFam.empty pairRounds [1, 0]).map
      (fun r => (r.1, r.2.1, r.2.2.sets)) = some (true, [0, 2], [∅]) ∧
    ∃ I, I ⊆ pairSys.invariant ∩ pairSys.closedAssume ∧ SelfStab (pairAct 0 ∪ pairAct 2) pairSys.closedAssume I := by
  refine ⟨pair_setting _ _ _ _ _ (by decide) (by decide), by decide +kernel, ?_⟩
  have : VAccepts (pairFile [0, 2] (pairAct 0 ∪ pairAct 2)) ⟨0, false, false⟩ true false 12 :=
    ⟨({(0, 0), (1, 1)}, 3), by decide +kernel⟩
  exact this.stab (pair_ok _ _)

end Verif.Props
