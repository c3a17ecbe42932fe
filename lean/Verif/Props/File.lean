import Verif.Proofs.FileAll

/-!
C101: the file written for a system is read back.
-/

namespace Verif.Props

open Verif.Model Verif.Spec Verif.Proofs

/-- **C101 (partial)**.  Let the program know the constants, variables, predicates, assumptions, invariants
and processes of a file, and let it have chosen actions.  If the conditions `FileFit` hold, the whole text
that it writes (with any comment of one line) is accepted, and what is read is the same again: the same
constants, variables, predicates, behaviour, processes, local names and accesses (one in each statement), one
assumption and one invariant with the same meaning as those before, the same actions that were stated before,
and the chosen actions.  Missing from the full statement: the conditions, without which it is false
(`C101_substitution`, `C101_short_list`, `C101_predicates_first`, `C99_…`, `C100_legit_weaker`). -/
theorem C101_file_read_back_partial {f : FileMem} (h : FileFit f) {comment : Option (List Char)}
    (hc : ∀ c, comment = some c → '\n' ∉ c) {t : List Char} (ht : fileText comment f = some t) :
    ∃! d, FileRead d t ∧ FileBack f d := by
  obtain ⟨d, h1, K, hK⟩ := file_read h hc ht
  exact ⟨d, ⟨⟨K, hK⟩, h1⟩, fun d' ⟨⟨K', hK'⟩, _⟩ => by
    have a := hK (max K K') (le_max_left _ _)
    have b := hK' (max K K') (le_max_right _ _)
    simp only [a, Option.some.injEq] at b
    exact b.symm⟩

/-! ### Examples -/

/-- The tree of a text. -/
def exAt (isPred : String → Bool) (nt : NT) (s : String) : Ex :=
  ((parse isPred 60 nt s.toList).join.map (·.1.1)).getD (.num 0)

/-- The text is that of a tidy expression. -/
def goodAt (isPred : String → Bool) (nt : NT) (s : String) : Bool :=
  (parse isPred 60 nt s.toList).join.isSome && tidy (exAt isPred nt s)

theorem fits_at {isPred : String → Bool} {nt : NT} {s : String} {e : Ex}
    (h : (goodAt isPred nt s && decide (e = exAt isPred nt s)) = true) : Fits isPred nt e := by
  simp only [goodAt, Bool.and_eq_true, decide_eq_true_eq] at h
  obtain ⟨⟨h1, h2⟩, rfl⟩ := h
  refine ⟨?_, h2⟩
  unfold exAt
  cases hp : parse isPred 60 nt s.toList with
  | none => rw [hp] at h1; simp at h1
  | some o =>
    cases o with
    | none => rw [hp] at h1; simp at h1
    | some v => exact ⟨60, s.toList, v.1.2, v.2, by rw [hp]; rfl⟩

instance : DecidablePred Named := fun x => inferInstanceAs (Decidable (ident x.toList = some (x, [])))

/-- The predicate of the processes of the example is known. -/
def hasFree : String → Bool := namedIn [("Free", .num 0)]

/-- Processes on a ring that treat both neighbours alike. -/
def matchPc : PcMem where
  name := "P"
  idx := "i"
  map := none
  count := .name "N"
  lets := [("ij", exAt noPred .expr "2*i"), ("ik", exAt noPred .expr "2*i+1")]
  accs := [.sym ["to", "from"] [[exAt noPred .expr "ij", exAt noPred .expr "ij-1"],
      [exAt noPred .expr "ik", exAt noPred .expr "ik+1"]]
      [(.yield, [exAt noPred .expr "w[to]"]), (.read, [exAt noPred .expr "w[from]"])]]
  preds := [("Free", exAt noPred .expr "w[ij]==0 && w[ik]==0")]
  assumes := [exAt hasFree .expr "w[ij] + w[ik] <= 1"]
  legits := [exAt hasFree .expr "w[ij]==1 || w[ik]==1", exAt hasFree .expr "!Free"]
  shadow := []
  permit := []
  forbid := [⟨false, exAt hasFree .expr "Free", [.wild]⟩]
  pc := ⟨[⟨.yield, .direct, 2⟩, ⟨.yield, .direct, 2⟩, ⟨.read, .direct, 2⟩, ⟨.read, .direct, 2⟩], []⟩
  acts := [[0, 0, 1, 0, 1, 0], [0, 0, 0, 1, 0, 1]]

/-- A file with these processes. -/
def matchFile : FileMem where
  consts := [⟨"N", .one (.num 4)⟩, ⟨"A", .list [.num 1, .num 2]⟩]
  vars := [⟨.direct, "w", exAt noPred (.sum true) "2*N", .num 2⟩]
  preds := []
  assumes := []
  mode := (.silent, .direct)
  legits := []
  behav := .silent
  pcs := [matchPc]

theorem match_pc : PcFit noPred matchPc where
  name := by decide +kernel
  idx := by decide +kernel
  map := by intro x e h; cases h
  count := fits_at (s := "N") (by decide +kernel)
  lets := by
    intro l hl
    simp only [matchPc, List.mem_cons, List.not_mem_nil, or_false] at hl
    rcases hl with rfl | rfl
    · exact ⟨by decide +kernel, fits_at (s := "2*i") (by decide +kernel)⟩
    · exact ⟨by decide +kernel, fits_at (s := "2*i+1") (by decide +kernel)⟩
  some := by simp [matchPc]
  accs := by
    intro d hd
    simp only [matchPc, List.mem_cons, List.not_mem_nil, or_false] at hd
    subst hd
    refine ⟨by simp, by decide +kernel, by simp, ?_, by simp, ?_⟩
    · intro v hv
      simp only [List.mem_cons, List.not_mem_nil, or_false] at hv
      rcases hv with rfl | rfl
      · refine ⟨rfl, fun e he => ?_⟩
        simp only [List.mem_cons, List.not_mem_nil, or_false] at he
        rcases he with rfl | rfl
        · exact fits_at (s := "ij") (by decide +kernel)
        · exact fits_at (s := "ij-1") (by decide +kernel)
      · refine ⟨rfl, fun e he => ?_⟩
        simp only [List.mem_cons, List.not_mem_nil, or_false] at he
        rcases he with rfl | rfl
        · exact fits_at (s := "ik") (by decide +kernel)
        · exact fits_at (s := "ik+1") (by decide +kernel)
    · intro v hv
      simp only [List.mem_cons, List.not_mem_nil, or_false] at hv
      rcases hv with rfl | rfl
      · refine ⟨by simp, fun u hu => ?_⟩
        simp only [List.mem_cons, List.not_mem_nil, or_false] at hu
        subst hu
        exact ⟨"w", .name "to", by decide +kernel, by decide +kernel, fits_at (s := "to") (by decide +kernel)⟩
      · refine ⟨by simp, fun u hu => ?_⟩
        simp only [List.mem_cons, List.not_mem_nil, or_false] at hu
        subst hu
        exact ⟨"w", .name "from", by decide +kernel, by decide +kernel, fits_at (s := "from") (by decide +kernel)⟩
  preds := by
    intro l1 q l2 h
    rcases l1 with _ | ⟨a, l1⟩
    · simp only [matchPc, List.nil_append, List.cons.injEq] at h
      obtain ⟨rfl, -⟩ := h
      exact ⟨by decide +kernel, fits_at (s := "w[ij]==0 && w[ik]==0") (by decide +kernel)⟩
    · simp [matchPc] at h
  assumes := by
    intro e he
    simp only [matchPc, List.mem_cons, List.not_mem_nil, or_false] at he
    subst he
    exact fits_at (s := "w[ij] + w[ik] <= 1") (by decide +kernel)
  legits := by
    refine ⟨fun e he => ?_, by decide +kernel⟩
    simp only [matchPc, List.mem_cons, List.not_mem_nil, or_false] at he
    rcases he with rfl | rfl
    · exact fits_at (s := "w[ij]==1 || w[ik]==1") (by decide +kernel)
    · exact fits_at (s := "!Free") (by decide +kernel)
  shadow := by simp [matchPc]
  permit := by simp [matchPc]
  forbid := by
    intro T hT
    simp only [matchPc, List.mem_cons, List.not_mem_nil, or_false] at hT
    subst hT
    exact ⟨fits_at (s := "Free") (by decide +kernel), by simp [AsgFit]⟩
  same := by decide +kernel
  refs := by
    intro _ q hq
    have h : matchPc.accs.flatMap refsOf = [("w", exAt noPred .expr "ij"), ("w", exAt noPred .expr "ik"),
        ("w", exAt noPred .expr "ij-1"), ("w", exAt noPred .expr "ik+1")] := by decide +kernel
    rw [h] at hq
    simp only [List.mem_cons, List.not_mem_nil, or_false] at hq
    rcases hq with rfl | rfl | rfl | rfl
    · exact fits_at (s := "ij") (by decide +kernel)
    · exact fits_at (s := "ik") (by decide +kernel)
    · exact fits_at (s := "ij-1") (by decide +kernel)
    · exact fits_at (s := "ik+1") (by decide +kernel)
  acts := by decide +kernel

theorem match_file : FileFit matchFile where
  consts := by
    intro c hc
    simp only [matchFile, List.mem_cons, List.not_mem_nil, or_false] at hc
    rcases hc with rfl | rfl
    · exact ⟨by decide +kernel, fits_at (s := "4") (by decide +kernel)⟩
    · refine ⟨by decide +kernel, by simp, fun e he => ?_⟩
      simp only [List.mem_cons, List.not_mem_nil, or_false] at he
      rcases he with rfl | rfl
      · exact fits_at (s := "1") (by decide +kernel)
      · exact fits_at (s := "2") (by decide +kernel)
  some := by simp [matchFile]
  vars := by
    intro v hv
    simp only [matchFile, List.mem_cons, List.not_mem_nil, or_false] at hv
    subst hv
    refine ⟨by decide +kernel, fits_at (s := "2*N") (by decide +kernel), fits_at (s := "2") (by decide +kernel), ?_⟩
    intro r
    have : exText (exAt noPred (.sum true) "2*N") = "2*N".toList := by decide +kernel
    rw [this]
    rfl
  preds := by
    intro l1 q l2 h
    simp [matchFile] at h
  assumes := by simp [matchFile, AssumesFit]
  mode := by simp [matchFile]
  legits := by simp [matchFile, LegitsFit]
  pcs := by
    intro q hq
    simp only [matchFile, List.mem_cons, List.not_mem_nil, or_false] at hq
    subst hq
    exact match_pc

/-- The hypotheses of C101 hold for this file; its text. -/
example : FileFit matchFile ∧ fileText (some "Solution".toList) matchFile = some (
    "// Solution\nconstant N := 4;\nconstant A := (1,2);\nvariable w[2*N] < 2;\nfuture silent;" ++
    "\nprocess P[i < N]\n{\n  let ij := 2*i;\n  let ik := 2*i+1;" ++
    "\n  symmetric (to, from) <- {# (ij, ij-1), (ik, ik+1) #}\n  {\n    yield: w[to];\n    read: w[from];\n  }" ++
    "\n  predicate Free := w[ij]==0 && w[ik]==0;\n  (assume & closed)\n    ((w[ij]+w[ik]<=1));" ++
    "\n  (future & silent)\n    ((w[ij]==1 || w[ik]==1) && !Free);\n  forbid:\n    ( Free --> _; )\n    ;" ++
    "\n  puppet:\n    ( w[ij-1]==1 && w[ik+1]==0 --> w[ij]:=1; w[ik]:=0; )" ++
    "\n    ( w[ij-1]==0 && w[ik+1]==1 --> w[ij]:=0; w[ik]:=1; )\n    ;\n}\n").toList :=
  ⟨match_file, by decide +kernel⟩

/-! ### Witnesses: what happens without the conditions -/

/-- Processes with an access `x[2*a]` for the values `i-1` and `i+1` of `a`. -/
def twicePc : PcMem where
  name := "P"
  idx := "i"
  map := none
  count := .num 4
  lets := []
  accs := [.sym ["a"] [[exAt noPred .expr "i-1"], [exAt noPred .expr "i+1"]]
      [(.read, [exAt noPred .expr "x[2*a]"])], .one .write [exAt noPred .expr "y[i]"]]
  preds := []
  assumes := []
  legits := []
  shadow := []
  permit := []
  forbid := []
  pc := ⟨[⟨.read, .direct, 2⟩, ⟨.read, .direct, 2⟩, ⟨.write, .direct, 2⟩], []⟩
  acts := [[0, 1, 0, 1]]

/-- A file with these processes. -/
def twiceFile : FileMem where
  consts := []
  vars := [⟨.direct, "x", .num 8, .num 2⟩, ⟨.direct, "y", .num 4, .num 2⟩]
  preds := []
  assumes := []
  mode := (.silent, .direct)
  legits := []
  behav := .shadow
  pcs := [twicePc]

/-- The actions of the section `puppet:` of each process of a file. -/
def puppetsOf (d : FileD) : List (List ActTree) :=
  d.items.filterMap fun
    | .proc p => some (p.items.flatMap fun | .acts .puppet l => l | _ => [])
    | _ => none

/-- **C101 fails for names of tuples that are part of an index.**  The names are replaced by the texts of
their values without parentheses: the process reads `x[2*(i-1)]` and `x[2*(i+1)]`, but its action is
written with the guard `x[2*i-1]==0 && x[2*i+1]==1`, which mentions other variables. -/
theorem C101_substitution :
    ∃ t d, fileText none twiceFile = some t ∧ fileP 60 t = some (some d) ∧
      ((twicePc.accs.flatMap refsOf).map fun q => q.2) =
        [.arith .mul (.num 2) (exAt noPred .expr "i-1"), .arith .mul (.num 2) (exAt noPred .expr "i+1"),
          .name "i"] ∧
      ((puppetsOf d).map fun l => l.map fun T => T.guard) =
        [[exAt noPred .expr "x[2*i-1]==0 && x[2*i+1]==1 && y[i]==0"]] ∧
      exAt noPred .expr "2*i-1" = .arith .sub (.arith .mul (.num 2) (.name "i")) (.num 1) :=
  ⟨(fileText none twiceFile).getD [], ((fileP 60 ((fileText none twiceFile).getD [])).join).getD ⟨[], [], []⟩,
    by decide +kernel, by decide +kernel, by decide +kernel, by decide +kernel, by decide +kernel⟩

/-- A file with a list of one constant. -/
def shortFile : FileMem where
  consts := [⟨"A", .list [.num 1]⟩]
  vars := [⟨.direct, "y", .num 4, .num 2⟩]
  preds := []
  assumes := []
  mode := (.silent, .direct)
  legits := []
  behav := .shadow
  pcs := []

/-- **Lists of one constant** are written as `(1)` and read back as a number. -/
theorem C101_short_list :
    ∃ t, fileText none shortFile = some t ∧
      (fileP 60 t).join.map (fun d => d.consts) = some [⟨"A", .one (.castI (.num 1))⟩] :=
  ⟨"\nconstant A := (1);\nvariable y[4] < 2;".toList, by decide +kernel, by decide +kernel⟩

/-- A file with constants and predicates of the same names; the invariant compares the constants. -/
def lateFile : FileMem where
  consts := [⟨"p", .one (.num 1)⟩, ⟨"q", .one (.num 2)⟩]
  vars := [⟨.direct, "y", .num 4, .num 2⟩]
  preds := [("p", exAt noPred .expr "y[0]==1"), ("q", exAt noPred .expr "y[0]==1")]
  assumes := []
  mode := (.silent, .direct)
  legits := [exAt noPred .expr "p!=q"]
  behav := .shadow
  pcs := []

/-- **Predicates are written first**, so an invariant that was read before them is read differently: first
as the comparison of two constants (which is true), then as that of two predicates (which is false, as they are the
same). -/
theorem C101_predicates_first :
    (fileP 60 ("constant p := 1; constant q := 2; variable y[4] < 2; (future & silent) (p!=q); " ++
        "predicate p := y[0]==1; predicate q := y[0]==1;").toList).join.map (fun d => d.items) =
      some [.legit (.silent, .direct) (.cmp true false true (.name "p") (.name "q")),
        .pred "p" (exAt noPred .expr "y[0]==1"), .pred "q" (exAt noPred .expr "y[0]==1")] ∧
    ∃ t, fileText none lateFile = some t ∧ (fileP 60 t).join.map (fun d => d.items) =
      some [.pred "p" (exAt noPred .expr "y[0]==1"), .pred "q" (exAt noPred .expr "y[0]==1"),
        .legit (.silent, .direct) (.xor (.name "p") (.name "q"))] :=
  ⟨by decide +kernel, (fileText none lateFile).getD [], by decide +kernel, by decide +kernel⟩

end Verif.Props
