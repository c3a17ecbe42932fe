import Verif.Proofs.FileAct
import Verif.Props.Legit

/-!
The assumptions and the invariants in a file are each read as one statement with the same meaning.
-/

namespace Verif.Proofs

open Verif.Model Verif.Spec Verif.Props

variable {isPred : String → Bool}

theorem fold_assume_nil {sep : List Char} {es : List Ex} (h : es = []) : es.foldl (joinAssume sep) [] = [] := by
  subst h; rfl

/-- What is known about the text of assumptions. -/
theorem joined_assume {es : List Ex} (hne : es ≠ []) (hes : AssumesFit isPred es) {sep : List Char}
    (hs : sep = globalSep ∨ sep = pcSep) :
    ∃ T, SameSets es T ∧ es.foldl (joinAssume sep) [] ≠ [] ∧
      ∀ R, AtLast (fun k => assumeStmtP isPred k (ows (globalAssumeText (es.foldl (joinAssume sep) []) ++ R)))
          (some (((), T), R)) ∧
        AtLast (fun k => assumeStmtP isPred k (ows (pcAssumeText (es.foldl (joinAssume sep) []) ++ R)))
          (some (((), T), R)) := by
  have hso : SepOk sep := by rcases hs with rfl | rfl; exacts [sep_global, sep_pc]
  have hsh : ∀ e ∈ es, ∃ i, Shape isPred .expr e i ∧ True := by
    intro e he
    obtain ⟨i, hi⟩ := fits_shape (hes e he)
    exact ⟨i, hi, trivial⟩
  obtain ⟨u, l, ⟨j, g1⟩, g2, g3, g4, g5, g6⟩ := assume_text hso (P := fun _ _ => True) hne hsh
  have hst : ∃ c v, exText u ++ tailText l = c :: v ∧ startC c = true := by
    obtain ⟨c, v, h1, h2, _⟩ := (shape_back g1).start
    exact ⟨c, v ++ tailText l, by rw [h1]; rfl, h2⟩
  refine ⟨andsEx u l, ?_, ?_, fun R => ?_⟩
  · intro join n dom ctx hn k a m st hm h
    refine collect_back (es := es) hm ?_ h
    intro c hc ps hps
    cases es with
    | nil => exact absurd rfl hne
    | cons e es =>
      cases hps with
      | cons p1 p2 =>
        cases g6 with
        | cons q1 q2 =>
          obtain ⟨i, _, rfl⟩ := q1
          simp only [List.foldl_cons, Finset.univ_inter]
          exact den_assume (den_par (den_of (hn c hc e (by simp)) p1) i)
            (fun x hx => hn c hc x (by simp [hx])) q2 p2
  · obtain ⟨c, v, h1, _⟩ := hst
    rw [← g5, h1]; simp
  · rw [← g5]
    exact (stmts_read (isPred := isPred) (t := exText u ++ tailText l)
      (T := (andsEx u l, if l = [] then j else false))
      (fun r hr => by rw [List.append_assoc]; exact ands_read g1 g2 (fun _ => g3) hr) hst R).2

/-- What is known about the text of invariants. -/
theorem joined_legit {es : List Ex} (hne : es ≠ []) (hes : LegitsFit isPred es) {sep : List Char}
    (hs : sep = globalSep ∨ sep = pcSep) :
    ∃ T, SameSets es T ∧ es.foldl (joinLegit sep) [] ≠ [] ∧
      ∀ R y c, (y = .closed → c = .direct) →
        AtLast (fun k => legitStmtP isPred k (ows (globalLegitText y c (es.foldl (joinLegit sep) []) ++ R)))
          (some (((y, c), T), R)) ∧
        AtLast (fun k => legitStmtP isPred k (ows (pcLegitText y c (es.foldl (joinLegit sep) []) ++ R)))
          (some (((y, c), T), R)) := by
  have hso : SepOk sep := by rcases hs with rfl | rfl; exacts [sep_global, sep_pc]
  obtain ⟨hes, hb⟩ := hes
  cases es with
  | nil => exact absurd rfl hne
  | cons e es =>
    simp only [List.tail_cons] at hb
    obtain ⟨i, h1⟩ := fits_shape (hes e (by simp))
    obtain ⟨g1, g2⟩ := legit_text hso h1 (es := es) fun x hx => ⟨hb x hx, fits_shape (hes x (by simp [hx]))⟩
    refine ⟨(es.foldl nextTree (e, i)).1, ?_, ?_, fun R y c hyc => ?_⟩
    · intro join n dom ctx hn k a m st hm h
      refine collect_back (es := e :: es) hm ?_ h
      intro c hc ps hps
      cases hps with
      | cons p1 p2 =>
        simp only [List.foldl_cons, Finset.univ_inter]
        exact den_legit (t := (e, i)) (den_of (hn c hc e (by simp)) p1) (fun x hx => hn c hc x (by simp [hx])) p2
    · obtain ⟨c, v, h1, _⟩ := g2
      rw [h1]; simp
    · exact (stmts_read g1 g2 R).1 y c hyc

end Verif.Proofs
