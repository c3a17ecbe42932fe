import Verif.Proofs.Cycle
import Verif.Model.Fmlae

/-! Helper lemmas: process-wise relations. -/

set_option linter.unusedSectionVars false

namespace Verif.Model
open Verif.Spec

universe u
variable {σ : Type u} [Fintype σ] [DecidableEq σ]

theorem mem_foldl_union {α β : Type*} [DecidableEq β] (f : α → Finset β) (l : List α)
    (acc : Finset β) (x : β) :
    x ∈ l.foldl (fun ret p => ret ∪ f p) acc ↔ x ∈ acc ∨ ∃ p ∈ l, x ∈ f p := by
  induction l generalizing acc with
  | nil => simp
  | cons a l ih => simp [ih, or_assoc]

theorem mem_xfmla {ps : List (Finset (σ × σ))} {e : σ × σ} :
    e ∈ xfmla ps ↔ ∃ p ∈ ps, e ∈ p := by
  have h : (fun (ret : Finset (σ × σ)) p => if p = ∅ then ret else ret ∪ p)
      = fun ret p => ret ∪ id p := by
    funext ret p
    split
    · next h => simp [h]
    · rfl
  unfold xfmla
  rw [h, mem_foldl_union]
  simp

theorem mem_domE {ps : List (Finset (σ × σ))} {s : σ} :
    s ∈ domE ps ↔ ∃ t, ∃ p ∈ ps, (s, t) ∈ p := by
  unfold domE; rw [mem_foldl_union]
  simp only [Finset.notMem_empty, mem_dom, false_or]
  constructor
  · rintro ⟨p, hp, t, h⟩; exact ⟨t, p, hp, h⟩
  · rintro ⟨t, p, hp, h⟩; exact ⟨p, hp, t, h⟩

theorem mem_rngE {ps : List (Finset (σ × σ))} {t : σ} :
    t ∈ rngE ps ↔ ∃ s, ∃ p ∈ ps, (s, t) ∈ p := by
  unfold rngE; rw [mem_foldl_union]
  simp only [Finset.notMem_empty, mem_rng, false_or]
  constructor
  · rintro ⟨p, hp, t, h⟩; exact ⟨t, p, hp, h⟩
  · rintro ⟨t, p, hp, h⟩; exact ⟨p, hp, t, h⟩

theorem mem_preE {ps : List (Finset (σ × σ))} {A : Finset σ} {s : σ} :
    s ∈ preE ps A ↔ ∃ t ∈ A, ∃ p ∈ ps, (s, t) ∈ p := by
  unfold preE; rw [mem_foldl_union]
  simp only [Finset.notMem_empty, mem_pre, false_or]
  constructor
  · rintro ⟨p, hp, t, ht, h⟩; exact ⟨t, ht, p, hp, h⟩
  · rintro ⟨t, ht, p, hp, h⟩; exact ⟨p, hp, t, ht, h⟩

theorem mem_imgE {ps : List (Finset (σ × σ))} {A : Finset σ} {t : σ} :
    t ∈ imgE ps A ↔ ∃ s ∈ A, ∃ p ∈ ps, (s, t) ∈ p := by
  unfold imgE; rw [mem_foldl_union]
  simp only [Finset.notMem_empty, mem_img, false_or]
  constructor
  · rintro ⟨p, hp, t, ht, h⟩; exact ⟨t, ht, p, hp, h⟩
  · rintro ⟨t, ht, p, hp, h⟩; exact ⟨p, hp, t, ht, h⟩

theorem preE_eq {ps : List (Finset (σ × σ))} {xn : Finset (σ × σ)}
    (hx : ∀ e, e ∈ xn ↔ ∃ p ∈ ps, e ∈ p) (A : Finset σ) : preE ps A = pre xn A := by
  ext s; simp [mem_preE, hx]

theorem imgE_eq {ps : List (Finset (σ × σ))} {xn : Finset (σ × σ)}
    (hx : ∀ e, e ∈ xn ↔ ∃ p ∈ ps, e ∈ p) (A : Finset σ) : imgE ps A = img xn A := by
  ext s; simp [mem_imgE, hx]

theorem domE_eq {ps : List (Finset (σ × σ))} {xn : Finset (σ × σ)}
    (hx : ∀ e, e ∈ xn ↔ ∃ p ∈ ps, e ∈ p) : domE ps = dom xn := by
  ext s; simp [mem_domE, hx]

theorem rngE_eq {ps : List (Finset (σ × σ))} {xn : Finset (σ × σ)}
    (hx : ∀ e, e ∈ xn ↔ ∃ p ∈ ps, e ∈ p) : rngE ps = rng xn := by
  ext s; simp [mem_rngE, hx]

/-! ### `Fmlae::cycle_ck` -/

/-- Post-fixpoint of preimage. -/
def HasSucc (xn : Finset (σ × σ)) (X : Finset σ) : Prop := ∀ s ∈ X, ∃ t ∈ X, (s, t) ∈ xn
/-- Post-fixpoint of image. -/
def HasPred (xn : Finset (σ × σ)) (X : Finset σ) : Prop := ∀ t ∈ X, ∃ s ∈ X, (s, t) ∈ xn

theorem fcycleBody1_cases (ps : List (Finset (σ × σ))) (lim : Option ℕ) (inv : Option (Finset σ))
    (st : FCycSt σ) :
    (st.span0 ⊆ preE ps st.span0 ∧ fcycleBody1 ps lim inv st = .inl (.inr st)) ∨
    (∃ m n, lim = some m ∧ 0 < m ∧ m < n ∧ fcycleBody1 ps lim inv st = .inl (.inl n)) ∨
    (¬ st.span0 ⊆ preE ps st.span0 ∧
      ∃ st', st'.span0 = st.span0 ∩ preE ps st.span0 ∧ fcycleBody1 ps lim inv st = .inr st') := by
  by_cases h : st.span0 ⊆ preE ps st.span0
  · left; exact ⟨h, by simp [fcycleBody1, h]⟩
  · right
    cases lim with
    | none => right; exact ⟨h, ⟨{ st with span0 := st.span0 ∩ preE ps st.span0 }, rfl, by simp only [fcycleBody1, if_neg h]⟩⟩
    | some m =>
      have key : ∀ nl, fcycleBody1 ps (some m) inv st = (if (decide (m > 0) && decide (nl > m)) = true
          then .inl (.inl nl) else .inr { span0 := st.span0 ∩ preE ps st.span0, nlayers := nl }) →
          (∃ m' n, some m = some m' ∧ 0 < m' ∧ m' < n ∧
            fcycleBody1 ps (some m) inv st = .inl (.inl n)) ∨
          (¬ st.span0 ⊆ preE ps st.span0 ∧ ∃ st', st'.span0 = st.span0 ∩ preE ps st.span0 ∧
            fcycleBody1 ps (some m) inv st = .inr st') := by
        intro nl hk
        by_cases hc : (decide (m > 0) && decide (nl > m)) = true
        · left
          rw [if_pos hc] at hk
          simp only [gt_iff_lt, Bool.and_eq_true, decide_eq_true_eq] at hc
          exact ⟨m, nl, rfl, hc.1, hc.2, hk⟩
        · right
          rw [if_neg hc] at hk
          exact ⟨h, _, rfl, hk⟩
      apply key
      simp only [fcycleBody1, if_neg h]
      rfl

theorem fcycle_loop1 {ps : List (Finset (σ × σ))} {xn : Finset (σ × σ)}
    (hx : ∀ e, e ∈ xn ↔ ∃ p ∈ ps, e ∈ p) (lim : Option ℕ) (inv : Option (Finset σ))
    (S : Finset σ) (fuel : ℕ) (hf : Fintype.card σ < fuel) :
    ∃ r, loopFuel (fcycleBody1 ps lim inv) fuel { span0 := S, nlayers := 1 } = some r ∧
      match r with
      | .inl n => ∃ m, lim = some m ∧ 0 < m ∧ m < n
      | .inr st => st.span0 ⊆ S ∧ HasSucc xn st.span0 ∧ ∀ X ⊆ S, HasSucc xn X → X ⊆ st.span0 := by
  refine loopFuel_total (body := fcycleBody1 ps lim inv)
    (fun st => st.span0 ⊆ S ∧ ∀ X ⊆ S, HasSucc xn X → X ⊆ st.span0) _
    (fun st => st.span0.card) ?_ ?_ fuel _ ?_ ?_
  · rintro st r ⟨h1, h2⟩ hb
    rcases fcycleBody1_cases ps lim inv st with ⟨h, he⟩ | ⟨m, n, hm, h0, hn, he⟩ | ⟨_, st', _, he⟩
    · rw [he] at hb
      cases hb
      refine ⟨h1, ?_, h2⟩
      intro s hs
      have := h hs
      rw [preE_eq hx] at this
      exact mem_pre.1 this
    · rw [he] at hb
      cases hb
      exact ⟨m, hm, h0, hn⟩
    · rw [he] at hb; cases hb
  · rintro st st' ⟨h1, h2⟩ hb
    have hcont : st'.span0 = st.span0 ∩ preE ps st.span0 ∧ ¬ st.span0 ⊆ preE ps st.span0 := by
      rcases fcycleBody1_cases ps lim inv st with ⟨_, he⟩ | ⟨m, n, _, _, _, he⟩ | ⟨hns, st1, h1', he⟩
      · rw [he] at hb; cases hb
      · rw [he] at hb; cases hb
      · rw [he] at hb; cases hb; exact ⟨h1', hns⟩
    obtain ⟨he, hns⟩ := hcont
    rw [he]
    refine ⟨⟨Finset.inter_subset_left.trans h1, ?_⟩, ?_⟩
    · intro X hX hXs s hs
      refine Finset.mem_inter.2 ⟨h2 X hX hXs hs, ?_⟩
      rw [preE_eq hx]
      obtain ⟨t, ht, hst⟩ := hXs s hs
      exact mem_pre.2 ⟨t, h2 X hX hXs ht, hst⟩
    · apply Finset.card_lt_card
      refine lt_of_le_of_ne Finset.inter_subset_left ?_
      intro h
      apply hns
      intro s hs
      have : s ∈ st.span0 ∩ preE ps st.span0 := by
        have h' : st.span0 ∩ preE ps st.span0 = st.span0 := h
        rw [h']; exact hs
      exact (Finset.mem_inter.1 this).2
  · exact ⟨Finset.Subset.refl _, fun X hX _ => hX⟩
  · exact lt_of_le_of_lt (Finset.card_le_univ _) hf

theorem fcycle_loop2 {ps : List (Finset (σ × σ))} {xn : Finset (σ × σ)}
    (hx : ∀ e, e ∈ xn ↔ ∃ p ∈ ps, e ∈ p) (F : Finset σ) (fuel : ℕ)
    (hf : Fintype.card σ < fuel) :
    ∃ G, loopFuel (fcycleBody2 ps) fuel F = some G ∧ G ⊆ F ∧ HasPred xn G ∧
      ∀ X ⊆ F, HasPred xn X → X ⊆ G := by
  have h := cycleBody2_total (rev xn) F fuel hf
  have hb : fcycleBody2 ps = cycleBody2 (rev xn) := by
    funext s; unfold fcycleBody2 cycleBody2; rw [imgE_eq hx, img_eq_pre_rev]
  rw [hb]
  obtain ⟨G, h1, h2, h3, h4⟩ := h
  refine ⟨G, h1, h2, ?_, ?_⟩
  · intro t ht; obtain ⟨s, hs, he⟩ := h3 t ht; exact ⟨s, hs, mem_rev.1 he⟩
  · intro X hX hXp
    apply h4 X hX
    intro t ht; obtain ⟨s, hs, he⟩ := hXp t ht; exact ⟨s, hs, mem_rev.2 he⟩

/-- A step inside `A`. -/
abbrev StepIn (xn : Finset (σ × σ)) (A : Finset σ) (a b : σ) : Prop :=
  Step xn a b ∧ a ∈ A ∧ b ∈ A

theorem exists_cycleIn_of_pred {xn : Finset (σ × σ)} {G : Finset σ} (h : HasPred xn G) {s : σ}
    (hs : s ∈ G) : ∃ c ∈ G, OnCycleIn xn G c ∧ Relation.ReflTransGen (StepIn xn G) c s := by
  obtain ⟨c, hc, h1, h2⟩ := exists_cycle_of_succ (xn := rev xn) (G := G)
    (fun t ht => by obtain ⟨s, hs, he⟩ := h t ht; exact ⟨s, hs, mem_rev.2 he⟩) hs
  have hsw : (fun a b => Step (rev xn) a b ∧ a ∈ G ∧ b ∈ G) = Function.swap (StepIn xn G) := by
    funext a b
    simp only [Step, Function.swap, mem_rev, StepIn, eq_iff_iff]
    tauto
  rw [hsw, Relation.reflTransGen_swap] at h2
  unfold OnCycleIn at h1 ⊢
  rw [hsw, Relation.transGen_swap] at h1
  exact ⟨c, hc, h1, h2⟩

theorem stepIn_mono {xn : Finset (σ × σ)} {A B : Finset σ} (h : A ⊆ B) :
    ∀ a b, StepIn xn A a b → StepIn xn B a b := fun _ _ ⟨h1, h2, h3⟩ => ⟨h1, h h2, h h3⟩

theorem onCycleIn_mono {xn : Finset (σ × σ)} {A B : Finset σ} (h : A ⊆ B) {c : σ}
    (hc : OnCycleIn xn A c) : OnCycleIn xn B c :=
  Relation.TransGen.mono (stepIn_mono h) _ _ hc

theorem onCycleIn_succ {xn : Finset (σ × σ)} {A : Finset σ} {c : σ} (h : OnCycleIn xn A c) :
    ∃ d, StepIn xn A c d ∧ OnCycleIn xn A d := by
  obtain ⟨d, h1, h2⟩ := Relation.TransGen.head'_iff.1 h
  exact ⟨d, h1, Relation.TransGen.tail' h2 h1⟩

theorem onCycleIn_pred {xn : Finset (σ × σ)} {A : Finset σ} {c : σ} (h : OnCycleIn xn A c) :
    ∃ d, StepIn xn A d c ∧ OnCycleIn xn A d := by
  obtain ⟨d, h1, h2⟩ := Relation.TransGen.tail'_iff.1 h
  exact ⟨d, h2, Relation.TransGen.head' h2 h1⟩

/-- The set between cycles inside `A`. -/
noncomputable def between (xn : Finset (σ × σ)) (A : Finset σ) : Finset σ :=
  open Classical in Finset.univ.filter fun s =>
    (∃ c, OnCycleIn xn A c ∧ Relation.ReflTransGen (StepIn xn A) c s) ∧
    ∃ c, OnCycleIn xn A c ∧ Relation.ReflTransGen (StepIn xn A) s c

theorem mem_between {xn : Finset (σ × σ)} {A : Finset σ} {s : σ} : s ∈ between xn A ↔
    (∃ c, OnCycleIn xn A c ∧ Relation.ReflTransGen (StepIn xn A) c s) ∧
    ∃ c, OnCycleIn xn A c ∧ Relation.ReflTransGen (StepIn xn A) s c := by simp [between]

theorem between_mem {xn : Finset (σ × σ)} {A : Finset σ} {s : σ} (h : s ∈ between xn A) :
    s ∈ A := by
  obtain ⟨_, c, hc, h2⟩ := mem_between.1 h
  rcases Relation.ReflTransGen.cases_head h2 with rfl | ⟨u, hu, _⟩
  · obtain ⟨d, hd, _⟩ := onCycleIn_succ hc; exact hd.2.1
  · exact hu.2.1

theorem between_hasSucc {xn : Finset (σ × σ)} {A : Finset σ} : HasSucc xn (between xn A) := by
  intro s hs
  obtain ⟨⟨c0, hc0, h0⟩, c, hc, h2⟩ := mem_between.1 hs
  rcases Relation.ReflTransGen.cases_head h2 with rfl | ⟨u, hu, huc⟩
  · obtain ⟨d, hd, hcd⟩ := onCycleIn_succ hc
    exact ⟨d, mem_between.2 ⟨⟨c0, hc0, h0.tail hd⟩, d, hcd, Relation.ReflTransGen.refl⟩, hd.1⟩
  · exact ⟨u, mem_between.2 ⟨⟨c0, hc0, h0.tail hu⟩, c, hc, huc⟩, hu.1⟩

theorem between_hasPred {xn : Finset (σ × σ)} {A : Finset σ} : HasPred xn (between xn A) := by
  intro s hs
  obtain ⟨⟨c0, hc0, h0⟩, c, hc, h2⟩ := mem_between.1 hs
  rcases Relation.ReflTransGen.cases_tail h0 with rfl | ⟨u, huc, hu⟩
  · obtain ⟨d, hd, hcd⟩ := onCycleIn_pred hc0
    exact ⟨d, mem_between.2 ⟨⟨d, hcd, Relation.ReflTransGen.refl⟩, c, hc, Relation.ReflTransGen.head hd h2⟩, hd.1⟩
  · exact ⟨u, mem_between.2 ⟨⟨c0, hc0, huc⟩, c, hc, Relation.ReflTransGen.head hu h2⟩, hu.1⟩

theorem sub_between {xn : Finset (σ × σ)} {A X : Finset σ} (hXA : X ⊆ A) (hs : HasSucc xn X)
    (hp : HasPred xn X) : X ⊆ between xn A := by
  intro s hsX
  obtain ⟨c, _, h1, h2⟩ := exists_cycle_of_succ hs hsX
  obtain ⟨c', _, h1', h2'⟩ := exists_cycleIn_of_pred hp hsX
  exact mem_between.2
    ⟨⟨c', onCycleIn_mono hXA h1', Relation.ReflTransGen.mono (stepIn_mono hXA) _ _ h2'⟩,
     ⟨c, onCycleIn_mono hXA h1, Relation.ReflTransGen.mono (stepIn_mono hXA) _ _ h2⟩⟩

theorem fcycleCk_eq {ps : List (Finset (σ × σ))} {xn : Finset (σ × σ)}
    (hx : ∀ e, e ∈ xn ↔ ∃ p ∈ ps, e ∈ p) (lim : Option ℕ) (inv assumed : Option (Finset σ))
    (fuel : ℕ) : fcycleCk fuel ps lim inv assumed =
      match loopFuel (fcycleBody1 ps lim inv) fuel
        { span0 := dom xn ∩ rng xn ∩ assumed.getD Finset.univ, nlayers := 1 } with
      | none => none
      | some (.inl n) => some { ret := false, scc := none, nlayers := n }
      | some (.inr st) =>
        match loopFuel (fcycleBody2 ps) fuel st.span0 with
        | none => none
        | some scc =>
          some { ret := decide scc.Nonempty, scc := some scc,
                 nlayers := if lim.isSome then st.nlayers else 0 } := by
  cases assumed with
  | none =>
    simp only [fcycleCk, domE_eq hx, rngE_eq hx, Option.getD_none, Finset.inter_univ]
    rfl
  | some A =>
    simp only [fcycleCk, domE_eq hx, rngE_eq hx, Option.getD_some]
    rfl

theorem fcycle_total {ps : List (Finset (σ × σ))} {xn : Finset (σ × σ)}
    (hx : ∀ e, e ∈ xn ↔ ∃ p ∈ ps, e ∈ p) (lim : Option ℕ) (inv assumed : Option (Finset σ))
    (fuel : ℕ) (hf : Fintype.card σ < fuel) :
    ∃ r, fcycleCk fuel ps lim inv assumed = some r ∧
      ((∃ m, lim = some m ∧ 0 < m ∧ m < r.nlayers ∧ r.ret = false ∧ r.scc = none) ∨
       ∃ G, r.scc = some G ∧ r.ret = decide G.Nonempty ∧
         G = between xn (assumed.getD Finset.univ)) := by
  obtain ⟨r1, hr1, hp1⟩ := fcycle_loop1 hx lim inv (dom xn ∩ rng xn ∩ assumed.getD Finset.univ) fuel hf
  rw [fcycleCk_eq hx, hr1]
  generalize assumed.getD Finset.univ = A at *
  cases r1 with
  | inl n =>
    obtain ⟨m, h1, h2, h3⟩ := hp1
    exact ⟨_, rfl, Or.inl ⟨m, h1, h2, h3, rfl, rfl⟩⟩
  | inr st =>
    obtain ⟨h1, h2, h3⟩ := hp1
    obtain ⟨G, hG, hG1, hG2, hG3⟩ := fcycle_loop2 hx st.span0 fuel hf
    simp only
    rw [hG]
    refine ⟨_, rfl, Or.inr ⟨G, rfl, rfl, ?_⟩⟩
    have hSA : st.span0 ⊆ A := h1.trans Finset.inter_subset_right
    have hGs : HasSucc xn G := by
      intro s hs
      obtain ⟨t, ht, he⟩ := h2 s (hG1 hs)
      refine ⟨t, ?_, he⟩
      have : insert t G ⊆ G := by
        apply hG3
        · intro x hx
          rcases Finset.mem_insert.1 hx with rfl | hx
          · exact ht
          · exact hG1 hx
        · intro x hx
          rcases Finset.mem_insert.1 hx with rfl | hx
          · exact ⟨s, Finset.mem_insert_of_mem hs, he⟩
          · obtain ⟨y, hy, hyx⟩ := hG2 x hx
            exact ⟨y, Finset.mem_insert_of_mem hy, hyx⟩
      exact this (Finset.mem_insert_self _ _)
    apply Finset.Subset.antisymm
    · exact sub_between (hG1.trans hSA) hGs hG2
    · apply hG3 _ _ between_hasPred
      apply h3 _ _ between_hasSucc
      intro s hs
      obtain ⟨t, _, ht⟩ := between_hasSucc s hs
      obtain ⟨t', _, ht'⟩ := between_hasPred s hs
      simp only [Finset.mem_inter, mem_dom, mem_rng]
      exact ⟨⟨⟨t, ht⟩, ⟨t', ht'⟩⟩, between_mem hs⟩

/-! ### `probabilistic_livelock_ck` -/

/-- A trap (spec form): inside `A`, and each state enables a process without progress transition
there, all of whose transitions stay. -/
def Trap (ps : List (Finset (σ × σ))) (progress : Finset (σ × σ)) (A X : Finset σ) : Prop :=
  X ⊆ A ∧ ∀ s ∈ X, ∃ p ∈ ps, (∃ t, (s, t) ∈ p) ∧ ∀ t, (s, t) ∈ p → (s, t) ∉ progress ∧ t ∈ X

theorem mem_unresolved {ps : List (Finset (σ × σ))} {progress : Finset (σ × σ)} {X : Finset σ}
    {s : σ} : s ∈ unresolved ps progress X ↔
      ∃ p ∈ ps, (∃ t, (s, t) ∈ p) ∧ ∀ t, (s, t) ∈ p → (s, t) ∉ progress ∧ t ∈ X := by
  unfold unresolved
  rw [mem_foldl_union]
  simp only [Finset.notMem_empty, Finset.mem_sdiff, mem_dom, Finset.mem_union, Finset.mem_inter,
    mem_pre, Finset.mem_compl, false_or]
  constructor
  · rintro ⟨p, hp, h1, h2⟩
    refine ⟨p, hp, h1, fun t ht => ⟨fun hpr => h2 (Or.inl ⟨t, ht, hpr⟩), ?_⟩⟩
    by_contra htX
    exact h2 (Or.inr ⟨t, htX, ht⟩)
  · rintro ⟨p, hp, h1, h2⟩
    refine ⟨p, hp, h1, ?_⟩
    rintro (⟨t, ht, hpr⟩ | ⟨t, htX, ht⟩)
    · exact (h2 t ht).1 hpr
    · exact htX (h2 t ht).2

theorem unresolved_mono {ps : List (Finset (σ × σ))} {progress : Finset (σ × σ)}
    {X Y : Finset σ} (h : X ⊆ Y) : unresolved ps progress X ⊆ unresolved ps progress Y := by
  intro s hs
  obtain ⟨p, hp, h1, h2⟩ := mem_unresolved.1 hs
  exact mem_unresolved.2 ⟨p, hp, h1, fun t ht => ⟨(h2 t ht).1, h (h2 t ht).2⟩⟩

theorem plBody1_total {ps : List (Finset (σ × σ))} {progress : Finset (σ × σ)} {A S1 : Finset σ}
    (hS1 : ∀ X, Trap ps progress A X → X ⊆ S1) (fuel : ℕ) (hf : Fintype.card σ + 1 < fuel) :
    ∃ X, loopFuel (plBody1 ps progress) fuel (A, S1) = some X ∧ Trap ps progress A X ∧
      ∀ Y, Trap ps progress A Y → Y ⊆ X := by
  refine loopFuel_ghost (γ := Bool) (body := plBody1 ps progress)
    (fun g st => st.1 ⊆ A ∧ (∀ Y, Trap ps progress A Y → Y ⊆ st.1 ∩ st.2) ∧
      (g = false → ¬ st.1 ⊆ st.2))
    (fun X => Trap ps progress A X ∧ ∀ Y, Trap ps progress A Y → Y ⊆ X)
    (fun g st => if g then Fintype.card σ + 1 else st.1.card) ?_ ?_ fuel true _ ?_ ?_
  · rintro g st X ⟨h1, h2, h3⟩ hb
    unfold plBody1 at hb
    simp only at hb
    split at hb
    · next h =>
      cases hb
      refine ⟨⟨Finset.inter_subset_left.trans h1, ?_⟩, h2⟩
      intro s hs
      exact mem_unresolved.1 (h hs)
    · cases hb
  · rintro g st st' ⟨h1, h2, h3⟩ hb
    unfold plBody1 at hb
    simp only at hb
    split at hb
    · cases hb
    · next h =>
      cases hb
      refine ⟨false, ⟨Finset.inter_subset_left.trans h1, ?_, fun _ => h⟩, ?_⟩
      · intro Y hY s hs
        refine Finset.mem_inter.2 ⟨h2 Y hY hs, ?_⟩
        obtain ⟨p, hp, h4, h5⟩ := hY.2 s hs
        exact mem_unresolved.2 ⟨p, hp, h4, fun t ht => ⟨(h5 t ht).1, h2 Y hY (h5 t ht).2⟩⟩
      · cases g with
        | true =>
          simp only [if_true, Bool.false_eq_true, if_false]
          exact Nat.lt_succ_of_le (Finset.card_le_univ _)
        | false =>
          simp only [Bool.false_eq_true, if_false]
          apply Finset.card_lt_card
          refine lt_of_le_of_ne Finset.inter_subset_left ?_
          intro heq
          apply h3 rfl
          intro s hs
          have h' : st.1 ∩ st.2 = st.1 := heq
          rw [← h'] at hs
          exact (Finset.mem_inter.1 hs).2
  · refine ⟨Finset.Subset.refl _, ?_, fun h => by cases h⟩
    intro Y hY s hs
    exact Finset.mem_inter.2 ⟨hY.1 hs, hS1 Y hY hs⟩
  · simpa using hf

theorem plBody2_total {xn : Finset (σ × σ)} {X : Finset σ} (fuel : ℕ)
    (hf : Fintype.card σ + 1 < fuel) :
    ∃ G, loopFuel (plBody2 xn) fuel (X, rng xn) = some G ∧ G ⊆ X ∧ HasPred xn G ∧
      ∀ Y ⊆ X, HasPred xn Y → Y ⊆ G := by
  refine loopFuel_ghost (γ := Bool) (body := plBody2 xn)
    (fun g st => st.1 ⊆ X ∧ (∀ Y ⊆ X, HasPred xn Y → Y ⊆ st.1 ∩ st.2) ∧
      (g = false → ¬ st.1 ⊆ st.2))
    (fun G => G ⊆ X ∧ HasPred xn G ∧ ∀ Y ⊆ X, HasPred xn Y → Y ⊆ G)
    (fun g st => if g then Fintype.card σ + 1 else st.1.card) ?_ ?_ fuel true _ ?_ ?_
  · rintro g st X ⟨h1, h2, h3⟩ hb
    unfold plBody2 at hb
    simp only at hb
    split at hb
    · next h =>
      cases hb
      refine ⟨Finset.inter_subset_left.trans h1, ?_, h2⟩
      intro s hs
      exact mem_img.1 (h hs)
    · cases hb
  · rintro g st st' ⟨h1, h2, h3⟩ hb
    unfold plBody2 at hb
    simp only at hb
    split at hb
    · cases hb
    · next h =>
      cases hb
      refine ⟨false, ⟨Finset.inter_subset_left.trans h1, ?_, fun _ => h⟩, ?_⟩
      · intro Y hYX hY s hs
        refine Finset.mem_inter.2 ⟨h2 Y hYX hY hs, ?_⟩
        obtain ⟨t, ht, he⟩ := hY s hs
        exact mem_img.2 ⟨t, h2 Y hYX hY ht, he⟩
      · cases g with
        | true =>
          simp only [if_true, Bool.false_eq_true, if_false]
          exact Nat.lt_succ_of_le (Finset.card_le_univ _)
        | false =>
          simp only [Bool.false_eq_true, if_false]
          apply Finset.card_lt_card
          refine lt_of_le_of_ne Finset.inter_subset_left ?_
          intro heq
          apply h3 rfl
          intro s hs
          have h' : st.1 ∩ st.2 = st.1 := heq
          rw [← h'] at hs
          exact (Finset.mem_inter.1 hs).2
  · refine ⟨Finset.Subset.refl _, ?_, fun h => by cases h⟩
    intro Y hYX hY s hs
    obtain ⟨t, _, he⟩ := hY s hs
    exact Finset.mem_inter.2 ⟨hYX hs, mem_rng.2 ⟨t, he⟩⟩
  · simpa using hf

end Verif.Model
