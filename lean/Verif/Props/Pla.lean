import Verif.Proofs.Pla
import Mathlib.Tactic.IntervalCases

/-!
# Property C111: actions minimized with `espresso`

`plaRows` and `plaText` are the functions of src/pla.cc, see Model/Pla; `PlaCover` (what is assumed of `espresso`),
`PlaText` and `PlaDoes` are in Spec/Pla.
-/

namespace Verif.Props
open Verif.Spec Verif.Model Verif.Proofs

/-- The numbers of values of the variables of a cube. -/
def plaDoms (accs : List Access) : List ℕ :=
  (accs.filter fun a => !a.pureShadowCk).map Access.domsz ++ (accs.filter Access.writeCk).map Access.domsz

/-- What is assumed of the accesses and the actions: a variable that is not a pure shadow variable is read, no variable
is written at random, and every assigned value is in its domain (so no shadow variable keeps its value). -/
structure PlaPlain (accs : List Access) (acts : List PlaAct) : Prop where
  access : ∀ a ∈ accs, (a.role ≠ .shadow → a.readCk = true) ∧ a.type ≠ .randomWrite
  guards : ∀ act ∈ acts, act.guards.length = accs.length
  assigns : ∀ act ∈ acts, List.Forall₂ (fun x (a : Access) => x < a.domsz) act.assigns (accs.filter Access.writeCk)

/-- **C111.**  Whatever cubes `espresso` answers, the text that is written for them has the steps of the actions: from
the values `v` of the accessed variables to the values `w` of the written ones. -/
theorem C111_same_partial {accs : List Access} {acts : List PlaAct} (h : PlaPlain accs acts)
    {cubes : List (List (List Bool))} (hc : PlaCover (plaDoms accs) (plaRows accs acts) cubes)
    {ts : List (List PlaGuard × List ℕ)} (ht : plaText accs cubes = some ts) {v w : List ℕ}
    (hv : List.Forall₂ (fun x (a : Access) => x < a.domsz) v accs)
    (hw : List.Forall₂ (fun x d => x < d) w ((accs.filter Access.writeCk).map Access.domsz)) :
    (∃ t ∈ ts, PlaText t (plaVisible accs v) w) ↔ ∃ act ∈ acts, PlaDoes accs act.guards act.assigns v w := by
  have hvis := visible_below accs v hv
  have hm := plaBackAll_mem ht
  have hback : ∀ c ∈ cubes, ∀ t, plaBack (accs.filter fun a => !a.pureShadowCk).length c = some t →
      (PlaText t (plaVisible accs v) w ↔ PlaCovers c (plaVisible accs v ++ w)) := fun c hcm t htc =>
    plaBack_spec htc (List.length_map _) ((hc.shape c hcm).imp fun _ _ x => x.1) hvis
  have h1 : (∃ t ∈ ts, PlaText t (plaVisible accs v) w) ↔ ∃ c ∈ cubes, PlaCovers c (plaVisible accs v ++ w) := by
    constructor
    · rintro ⟨t, htm, hp⟩
      obtain ⟨c, hcm, hb⟩ := forall₂_mem_right (R := fun c t => c ∈ cubes ∧
        plaBack (accs.filter fun a => !a.pureShadowCk).length c = some t)
        (List.forall₂_iff_get.mpr ⟨hm.length_eq, fun i h1 h2 =>
          ⟨List.get_mem _ _, (List.forall₂_iff_get.mp hm).2 i h1 h2⟩⟩) t htm
      exact ⟨c, hcm, (hback c hcm t hb.2).mp hp⟩
    · rintro ⟨c, hcm, hp⟩
      obtain ⟨t, htm, hb⟩ := forall₂_mem_left hm c hcm
      exact ⟨t, htm, (hback c hcm t hb).mpr hp⟩
  rw [h1, hc.same _ (below_append hvis hw)]
  unfold plaRows
  constructor
  · rintro ⟨c, hcm, hp⟩
    obtain ⟨act, ham, rfl⟩ := List.mem_map.mp hcm
    have hal := (h.assigns act ham).length_eq
    refine ⟨act, ham, (does_iff h.access hv.length_eq (h.guards act ham) ?_ (h.assigns act ham)).mpr
      ((row_covers (h.guards act ham) hal hvis hw).mp hp)⟩
    rw [hw.length_eq, List.length_map]
  · rintro ⟨act, ham, hd⟩
    have hal := (h.assigns act ham).length_eq
    refine ⟨_, List.mem_map.mpr ⟨act, ham, rfl⟩, (row_covers (h.guards act ham) hal hvis hw).mpr
      ((does_iff h.access hv.length_eq (h.guards act ham) ?_ (h.assigns act ham)).mp hd)⟩
    rw [hw.length_eq, List.length_map]

/-- **C111, no `Claim` fails** if the actions are deterministic. -/
theorem C111_deterministic {accs : List Access} {acts : List PlaAct} (h : PlaPlain accs acts)
    (hd : ∀ act ∈ acts, ∀ act' ∈ acts, plaVisible accs act.guards = plaVisible accs act'.guards →
      act.assigns = act'.assigns)
    {cubes : List (List (List Bool))} (hc : PlaCover (plaDoms accs) (plaRows accs acts) cubes) :
    ∃ ts, plaText accs cubes = some ts := by
  have hone : ∀ c ∈ cubes, plaBack (accs.filter fun a => !a.pureShadowCk).length c ≠ none := by
    intro c hcm hn
    unfold plaBack at hn
    rw [Option.map_eq_none_iff] at hn
    have hsh := hc.shape c hcm
    have hlen : (accs.filter fun a => !a.pureShadowCk).length =
      ((accs.filter fun a => !a.pureShadowCk).map Access.domsz).length := (List.length_map _).symm
    have hs1 := List.forall₂_take (accs.filter fun a => !a.pureShadowCk).length hsh
    have hs2 := List.forall₂_drop (accs.filter fun a => !a.pureShadowCk).length hsh
    unfold plaDoms at hs1 hs2
    rw [List.take_left' hlen.symm] at hs1
    rw [List.drop_left' hlen.symm] at hs2
    obtain ⟨w, w', hne, hcw, hcw'⟩ := assigns_none _ (fun part hp => by
      obtain ⟨d, -, -, x, -, hx⟩ := forall₂_mem_left hs2 part hp
      exact ⟨x, hx⟩) hn
    obtain ⟨v, hcv⟩ := covers_some _ (fun part hp => by
      obtain ⟨d, -, -, x, -, hx⟩ := forall₂_mem_left hs1 part hp
      exact ⟨x, hx⟩)
    have hv := covers_below hs1 hcv
    have hw := covers_below hs2 hcw
    have hw' := covers_below hs2 hcw'
    have hrow : ∀ u, PlaCovers (c.drop (accs.filter fun a => !a.pureShadowCk).length) u →
        List.Forall₂ (fun x d => x < d) u ((accs.filter Access.writeCk).map Access.domsz) →
        ∃ act ∈ acts, v = plaVisible accs act.guards ∧ u = act.assigns := by
      intro u hcu hu
      have hcov : PlaCovers c (v ++ u) := by
        have := (covers_append (c.take (accs.filter fun a => !a.pureShadowCk).length)
          (c.drop (accs.filter fun a => !a.pureShadowCk).length) v u (List.Forall₂.length_eq hcv).symm).mpr ⟨hcv, hcu⟩
        rwa [List.take_append_drop] at this
      obtain ⟨r, hr, hcr⟩ := (hc.same _ (below_append hv hu)).mp ⟨c, hcm, hcov⟩
      obtain ⟨act, ham, rfl⟩ := List.mem_map.mp hr
      exact ⟨act, ham, (row_covers (h.guards act ham) (h.assigns act ham).length_eq hv hu).mp hcr⟩
    obtain ⟨act, ham, e1, e2⟩ := hrow w hcw hw
    obtain ⟨act', ham', e1', e2'⟩ := hrow w' hcw' hw'
    exact hne (by rw [e2, e2', hd act ham act' ham' (by rw [← e1, ← e1'])])
  unfold plaText
  clear hc
  induction cubes with
  | nil => exact ⟨[], rfl⟩
  | cons c l ih =>
    obtain ⟨t, ht⟩ := Option.ne_none_iff_exists'.mp (hone c List.mem_cons_self)
    obtain ⟨ts, hts⟩ := ih fun c hc => hone c (List.mem_cons_of_mem _ hc)
    exact ⟨t :: ts, by rw [plaBackAll, ht]; simp only [hts]; rfl⟩

/-- `espresso` may always answer what it is given, if there are no rows without a value. -/
theorem plaCover_self {accs : List Access} {acts : List PlaAct}
    (hs : ∀ c ∈ plaRows accs acts,
      List.Forall₂ (fun (part : List Bool) d => part.length = d ∧ ∃ x < d, part[x]? = some true) c (plaDoms accs)) :
    PlaCover (plaDoms accs) (plaRows accs acts) (plaRows accs acts) := ⟨fun _ _ => Iff.rfl, hs⟩

/-- Three values, two ways to leave the value 0. -/
def plaEgAccs : List Access := [⟨.write, .direct, 3⟩]
def plaEgActs : List PlaAct := [⟨[0], [1]⟩, ⟨[0], [2]⟩]

/-- **C111 does not hold** of actions that are not deterministic: `espresso` may join two of them to one cube, and then
the `Claim` of src/pla.cc:153 fails. -/
theorem C111_choice : PlaPlain plaEgAccs plaEgActs ∧
    PlaCover (plaDoms plaEgAccs) (plaRows plaEgAccs plaEgActs) [[[true, false, false], [false, true, true]]] ∧
    plaText plaEgAccs [[[true, false, false], [false, true, true]]] = none := by
  refine ⟨⟨by decide, by decide, ?_⟩, ⟨?_, ?_⟩, by decide⟩
  · intro act ha
    simp only [plaEgActs, List.mem_cons, List.not_mem_nil, or_false] at ha
    rcases ha with rfl | rfl <;> exact .cons (by decide) .nil
  · intro p hp
    have e : plaDoms plaEgAccs = [3, 3] := by decide
    have e2 : plaRows plaEgAccs plaEgActs = [[[true, false, false], [false, true, false]],
      [[true, false, false], [false, false, true]]] := by decide
    rw [e] at hp
    rw [e2]
    cases hp with
    | cons h1 hp =>
    cases hp with
    | cons h2 hp =>
    cases hp
    rename_i x y
    simp only [PlaCovers, List.mem_cons, List.not_mem_nil, or_false, exists_eq_left, exists_eq_or_imp,
      List.forall₂_cons, List.Forall₂.nil, and_true]
    interval_cases x <;> interval_cases y <;> simp
  · intro c hcm
    rw [List.mem_singleton] at hcm
    subst hcm
    exact .cons ⟨rfl, 0, by decide, rfl⟩ (.cons ⟨rfl, 1, by decide, rfl⟩ .nil)

/-- **C111 does not hold** of variables that are written but not read: there is a guard for them, src/pla.cc:29-33,
though the value of it has no meaning. -/
theorem C111_unread : ∃ cubes ts, PlaCover (plaDoms [⟨.yield, .direct, 2⟩]) (plaRows [⟨.yield, .direct, 2⟩] [⟨[0], [1]⟩]) cubes ∧
    plaText [⟨.yield, .direct, 2⟩] cubes = some ts ∧
    PlaDoes [⟨.yield, .direct, 2⟩] [0] [1] [1] [1] ∧ ¬ ∃ t ∈ ts, PlaText t (plaVisible [⟨.yield, .direct, 2⟩] [1]) [1] := by
  refine ⟨_, [([.or [0]], [1])], plaCover_self ?_, by decide, ⟨?_, ?_⟩, ?_⟩
  · intro c hcm
    have : c = [[true, false], [false, true]] := by
      have e : plaRows [⟨.yield, .direct, 2⟩] [⟨[0], [1]⟩] = [[[true, false], [false, true]]] := by decide
      rw [e] at hcm
      simpa using hcm
    subst this
    exact .cons ⟨rfl, 0, by decide, rfl⟩ (.cons ⟨rfl, 1, by decide, rfl⟩ .nil)
  · intro i a hi hs
    have := List.mem_of_getElem? hi
    rw [List.mem_singleton] at this
    subst this
    exact absurd hs (by decide)
  · intro k x hx _
    cases k with
    | zero => cases hx; rfl
    | succ k => cases hx
  · rintro ⟨t, ht, h1, -⟩
    rw [List.mem_singleton] at ht
    subst ht
    have e : plaVisible [⟨.yield, .direct, 2⟩] [1] = [1] := by decide
    rw [e] at h1
    cases h1 with
    | cons h1 _ => exact absurd h1 (by simp [PlaGuard.Holds])

/-- **C111 does not hold** of shadow variables that keep their value: the row of such an action covers nothing, and the
action is lost. -/
theorem C111_keep : PlaCover (plaDoms [⟨.write, .direct, 2⟩, ⟨.write, .shadow, 2⟩])
      (plaRows [⟨.write, .direct, 2⟩, ⟨.write, .shadow, 2⟩] [⟨[0, 0], [1, 2]⟩]) [] ∧
    plaText [⟨.write, .direct, 2⟩, ⟨.write, .shadow, 2⟩] [] = some [] ∧
    PlaDoes [⟨.write, .direct, 2⟩, ⟨.write, .shadow, 2⟩] [0, 0] [1, 2] [0, 1] [1, 1] := by
  refine ⟨⟨?_, by simp⟩, rfl, ⟨?_, ?_⟩⟩
  · intro p hp
    have e2 : plaRows [⟨.write, .direct, 2⟩, ⟨.write, .shadow, 2⟩] [⟨[0, 0], [1, 2]⟩] =
      [[[true, false], [false, true], [false, false]]] := by decide
    have e : plaDoms [⟨.write, .direct, 2⟩, ⟨.write, .shadow, 2⟩] = [2, 2, 2] := by decide
    rw [e] at hp
    rw [e2]
    cases hp with
    | cons h1 hp =>
    cases hp with
    | cons h2 hp =>
    cases hp with
    | cons h3 hp =>
    cases hp
    rename_i x y z
    simp only [PlaCovers, List.mem_cons, List.not_mem_nil, or_false, exists_eq_left, false_and, exists_false,
      List.forall₂_cons, List.Forall₂.nil, and_true, false_iff]
    interval_cases z <;> simp
  · intro i a hi hs
    match i, hi with
    | 0, _ => rfl
    | 1, hi => cases hi; exact absurd hs (by decide)
  · intro k x hx _
    match k, hx with
    | 0, hx => cases hx; rfl
    | 1, hx => cases hx; rfl

/-- **C111 does not hold** of random writes: the value 0 is assigned. -/
theorem C111_random : ∃ cubes ts,
    PlaCover (plaDoms [⟨.randomWrite, .direct, 2⟩]) (plaRows [⟨.randomWrite, .direct, 2⟩] [⟨[1], [0]⟩]) cubes ∧
    plaText [⟨.randomWrite, .direct, 2⟩] cubes = some ts ∧
    PlaDoes [⟨.randomWrite, .direct, 2⟩] [1] [0] [1] [1] ∧
    ¬ ∃ t ∈ ts, PlaText t (plaVisible [⟨.randomWrite, .direct, 2⟩] [1]) [1] := by
  refine ⟨_, [([.or [1]], [0])], plaCover_self ?_, by decide, ⟨?_, ?_⟩, ?_⟩
  · intro c hcm
    have : c = [[false, true], [true, false]] := by
      have e : plaRows [⟨.randomWrite, .direct, 2⟩] [⟨[1], [0]⟩] = [[[false, true], [true, false]]] := by decide
      rw [e] at hcm
      simpa using hcm
    subst this
    exact .cons ⟨rfl, 1, by decide, rfl⟩ (.cons ⟨rfl, 0, by decide, rfl⟩ .nil)
  · intro i a hi hs
    match i, hi with
    | 0, _ => rfl
  · intro k x hx hr
    have := (List.mem_filter.mp (List.mem_of_getElem? hx)).1
    simp only [List.zip_cons_cons, List.zip_nil_right, List.mem_singleton] at this
    subst this
    exact absurd rfl hr
  · rintro ⟨t, ht, -, h2⟩
    rw [List.mem_singleton] at ht
    subst ht
    exact absurd h2 (by decide)

/-- A value that is moved towards 1: the actions 0→1 and 2→1, and a shadow variable. -/
def plaSmpAccs : List Access := [⟨.write, .direct, 3⟩, ⟨.read, .direct, 2⟩, ⟨.write, .shadow, 2⟩]
def plaSmpActs : List PlaAct :=
  [⟨[0, 0, 0], [1, 0]⟩, ⟨[0, 1, 0], [1, 0]⟩, ⟨[2, 0, 0], [1, 0]⟩, ⟨[2, 1, 0], [1, 0]⟩]
def plaSmpCube : List (List Bool) := [[true, false, true], [true, true], [false, true, false], [true, false]]

/-- The hypotheses of C111 are met by an example: `espresso` may join four actions to one cube, and the text is
`x!=1 --> x:=1; s:=0`. -/
example : PlaPlain plaSmpAccs plaSmpActs ∧
    (∀ act ∈ plaSmpActs, ∀ act' ∈ plaSmpActs, plaVisible plaSmpAccs act.guards = plaVisible plaSmpAccs act'.guards →
      act.assigns = act'.assigns) ∧
    PlaCover (plaDoms plaSmpAccs) (plaRows plaSmpAccs plaSmpActs) [plaSmpCube] ∧
    plaText plaSmpAccs [plaSmpCube] = some [([.ne 1, .any], [1, 0])] := by
  refine ⟨⟨by decide, by decide, ?_⟩, ?_, ⟨?_, ?_⟩, by decide⟩
  · intro act ha
    simp only [plaSmpActs, List.mem_cons, List.not_mem_nil, or_false] at ha
    rcases ha with rfl | rfl | rfl | rfl <;> exact .cons (by decide) (.cons (by decide) .nil)
  · intro act ha act' ha' _
    simp only [plaSmpActs, List.mem_cons, List.not_mem_nil, or_false] at ha ha'
    rcases ha with rfl | rfl | rfl | rfl <;> rcases ha' with rfl | rfl | rfl | rfl <;> rfl
  · intro p hp
    have e : plaDoms plaSmpAccs = [3, 2, 3, 2] := by decide
    have e2 : plaRows plaSmpAccs plaSmpActs =
      [[[true, false, false], [true, false], [false, true, false], [true, false]],
       [[true, false, false], [false, true], [false, true, false], [true, false]],
       [[false, false, true], [true, false], [false, true, false], [true, false]],
       [[false, false, true], [false, true], [false, true, false], [true, false]]] := by decide
    rw [e] at hp
    rw [e2]
    cases hp with
    | cons h1 hp =>
    cases hp with
    | cons h2 hp =>
    cases hp with
    | cons h3 hp =>
    cases hp with
    | cons h4 hp =>
    cases hp
    rename_i x y z u
    simp only [PlaCovers, plaSmpCube, List.mem_cons, List.not_mem_nil, or_false, exists_eq_left, exists_eq_or_imp,
      List.forall₂_cons, List.Forall₂.nil, and_true]
    interval_cases x <;> interval_cases y <;> simp
  · intro c hcm
    rw [List.mem_singleton] at hcm
    subst hcm
    exact .cons ⟨rfl, 0, by decide, rfl⟩ (.cons ⟨rfl, 0, by decide, rfl⟩ (.cons ⟨rfl, 1, by decide, rfl⟩
      (.cons ⟨rfl, 0, by decide, rfl⟩ .nil)))

end Verif.Props
