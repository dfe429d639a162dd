import Verif.Static.Files

/-!
# Transactions on a static warren's index
-/

namespace Verif.Static
open Verif.Hopper Verif.Store Verif.Gcl

/-! ## Lists -/

theorem length_le_of_subset {α : Type} : ∀ {l m : List α}, l.Pairwise (· ≠ ·) → (∀ a ∈ l, a ∈ m) →
    l.length ≤ m.length := by
  intro l
  induction l with
  | nil => intro m _ _; exact Nat.zero_le _
  | cons x l ih =>
    intro m hp hs
    obtain ⟨h1, h2⟩ := List.pairwise_cons.1 hp
    obtain ⟨m1, m2, rfl⟩ := List.append_of_mem (hs x (by simp))
    have := ih (m := m1 ++ m2) h2 (by
      intro a ha
      have h3 := hs a (by simp [ha])
      have h4 := h1 a ha
      simp only [List.mem_append, List.mem_cons] at h3 ⊢
      rcases h3 with h3 | h3 | h3
      · exact Or.inl h3
      · exact absurd h3.symm h4
      · exact Or.inr h3)
    simp only [List.length_append, List.length_cons] at this ⊢
    omega

theorem listing_length {l m : List Ann} (h : Listing l) (hs : ∀ a ∈ l, a ∈ m) : l.length ≤ m.length :=
  length_le_of_subset (h.sorted.imp fun h e => by rw [e] at h; omega) hs

/-! ## Postings of one feature -/

/-- The annotations of a feature in a file. -/
def annsAt (Ps : List Posting) (f : Int) : List Ann :=
  (Ps.filter fun P => P.feature == f).flatMap Posting.anns

theorem annsAt_cons (P : Posting) (Ps : List Posting) (f : Int) :
    annsAt (P :: Ps) f = (if P.feature = f then P.anns else []) ++ annsAt Ps f := by
  unfold annsAt
  by_cases h : P.feature = f <;> simp [List.filter_cons, h]

/-- A sorted file has at most one posting of a feature. -/
theorem sorted_filter {Ps : List Posting} (hs : Sorted Ps) (f : Int) :
    Ps.filter (fun P => P.feature == f) = [] ∨ ∃ P ∈ Ps, Ps.filter (fun P => P.feature == f) = [P] ∧ P.feature = f := by
  induction Ps with
  | nil => exact Or.inl rfl
  | cons P Ps ih =>
    obtain ⟨s1, s2⟩ := List.pairwise_cons.1 hs
    by_cases h : P.feature = f
    · right
      refine ⟨P, by simp, ?_, h⟩
      have : Ps.filter (fun P => P.feature == f) = [] := by
        rw [List.filter_eq_nil_iff]
        intro Q hQ
        have := s1 Q hQ
        simp only [beq_iff_eq]; omega
      rw [List.filter_cons, this]; simp [h]
    · rw [List.filter_cons, if_neg (by simpa using h)]
      rcases ih s2 with i | ⟨Q, h1, h2⟩
      · exact Or.inl i
      · exact Or.inr ⟨Q, by simp [h1], h2⟩

theorem annsAt_listing {N : Nat} {Ps : List Posting} (hs : Sorted Ps) (hg : ∀ P ∈ Ps, GoodP N P) (f : Int) :
    Listing (annsAt Ps f) := by
  unfold annsAt
  rcases sorted_filter hs f with h | ⟨P, hP, h, _⟩
  · rw [h]; exact listing_nil
  · rw [h]; simpa using (hg P hP).listing

theorem annsAt_length {N : Nat} {Ps : List Posting} (hs : Sorted Ps) (hg : ∀ P ∈ Ps, GoodP N P) (f : Int) :
    (annsAt Ps f).length ≤ N := by
  unfold annsAt
  rcases sorted_filter hs f with h | ⟨P, hP, h, _⟩
  · rw [h]; simp
  · rw [h]; simpa [anns_length (hg P hP).ok] using (hg P hP).size

theorem ofF_anns {N : Nat} (f : Int) : ∀ {Ls : List (List Posting)}, (∀ L ∈ Ls, Sorted L) →
    (∀ L ∈ Ls, ∀ P ∈ L, GoodP N P) →
    (ofF f Ls).map Posting.anns = (Ls.map fun L => annsAt L f).filter fun l => l ≠ [] := by
  intro Ls
  induction Ls with
  | nil => intro _ _; rfl
  | cons L Ls ih =>
    intro hs hg
    rw [ofF_cons, List.map_append, ih (fun L hL => hs L (by simp [hL])) (fun L hL => hg L (by simp [hL])),
      List.map_cons, List.filter_cons]
    unfold annsAt
    rcases sorted_filter (hs L (by simp)) f with h | ⟨P, hP, h, _⟩
    · rw [h]; simp
    · rw [h]; simp [(hg L (by simp) P hP).nonempty]

theorem ofF_size {N : Nat} (f : Int) : ∀ {Ls : List (List Posting)}, (∀ L ∈ Ls, ∀ P ∈ L, GoodP N P) →
    ((ofF f Ls).map Posting.size).sum = ((Ls.map fun L => annsAt L f).flatten).length := by
  intro Ls
  induction Ls with
  | nil => intro _; rfl
  | cons L Ls ih =>
    intro hg
    rw [ofF_cons, List.map_append, List.sum_append, ih (fun L hL => hg L (by simp [hL])), List.map_cons,
      List.flatten_cons, List.length_append]
    congr 1
    unfold annsAt
    rw [List.length_flatMap]
    congr 1
    apply List.map_congr_left
    intro P hP
    exact (anns_length (hg L (by simp) P (List.mem_filter.1 hP).1).ok).symm

/-- A good posting passes the check. -/
theorem invariants_ok {P : Posting} (h : P.Ok) (hl : Listing P.anns) : P.invariants = true := by
  obtain ⟨c1, c2, _⟩ := cols h
  obtain ⟨o1, o2⟩ := h
  have sp : P.ps.Pairwise (· ≤ ·) := by
    rw [← c1, List.pairwise_map]; exact hl.sorted.imp fun h => by omega
  have se : P.ends.Pairwise (· ≤ ·) := by
    rw [← c2, List.pairwise_map]; exact hl.sorted.imp fun h => by omega
  have hz : ∀ x ∈ P.ps.zip P.ends, x.1 ≤ x.2 := by
    rw [← c1, ← c2]
    intro x hx
    rw [List.zip_map', List.mem_map] at hx
    obtain ⟨a, ha, rfl⟩ := hx
    exact (hl.bounds a ha).2.1
  unfold Posting.invariants
  by_cases hq : P.qs = []
  · rcases o2 with o2 | o2 <;> simp [hq, o2, sp]
  · have he : P.ends = P.qs := by unfold Posting.ends; rw [if_neg hq]
    rw [he] at se hz
    have o1 : P.qs.length = P.ps.length := by
      rcases o1 with o1 | o1
      · contradiction
      · exact o1
    have ha : (P.ps.zip P.qs).all (fun x => decide (x.1 ≤ x.2)) = true := by
      rw [List.all_eq_true]; intro x hx; simpa using hz x hx
    rcases o2 with o2 | o2 <;> simp only [o1, o2, sp, se, ha] <;> simp

/-- Combining the postings of a feature gives the minimal intervals of all, each with the newest value. -/
theorem annCombine_ok {N M : Nat} {f : Int} {Ps : List Posting} (hne : Ps ≠ []) (hg : ∀ P ∈ Ps, GoodP N P)
    (hf : ∀ P ∈ Ps, P.feature = f) (hM : (Ps.map Posting.size).sum ≤ M) :
    ∃ R, annCombine f Ps = some R ∧ GoodP M R ∧ R.feature = f ∧
      ∀ a, a ∈ R.anns ↔ unionL (Ps.map Posting.anns) a := by
  obtain ⟨R, r1, r2, r3, r4, r5, r6, r7⟩ := mergePostings_ok hne (fun P hP => (hg P hP).ok)
    (fun P hP => (hg P hP).listing) (fun P hP => (hg P hP).nonempty)
  have hz := r6 fun P hP => (hg P hP).zero
  have hm : ∀ a, a ∈ R.anns ↔ unionL (Ps.map Posting.anns) a := by
    intro a
    rw [← views_eq (fun P hP => (hg P hP).zero), ← r7]
    unfold Posting.view
    rw [List.mem_map]
    constructor
    · intro ha; exact ⟨a, ha, hz a ha⟩
    · rintro ⟨b, hb, rfl⟩; rw [hz b hb]; exact hb
  have hmem : ∀ a ∈ R.anns, ∃ P ∈ Ps, a ∈ P.anns := by
    intro a ha
    obtain ⟨L, hL, ha⟩ := unionL_mem ((hm a).1 ha)
    obtain ⟨P, hP, rfl⟩ := List.mem_map.1 hL
    exact ⟨P, hP, ha⟩
  have hRf : R.feature = f := by
    cases Ps with
    | nil => exact absurd rfl hne
    | cons P Ps => rw [r5 P (by simp), hf P (by simp)]
  refine ⟨R, ?_, ⟨r2, r4, ?_, hz, ?_, ?_, ?_, ?_⟩, hRf, hm⟩
  · match Ps, hne, r1 with
    | [P], _, r1 => exact r1
    | P :: Q :: Ps, _, r1 =>
      have hi := invariants_ok r2 r4
      unfold annCombine
      simp only [r1, hi, if_true]
  · obtain ⟨P, hP⟩ := List.exists_mem_of_ne_nil _ hne
    obtain ⟨x, hx⟩ := List.exists_mem_of_ne_nil _ (hg P hP).nonempty
    obtain ⟨m, hm', _⟩ := unionL_cover (Ls := Ps.map Posting.anns) (by
      intro L hL
      obtain ⟨Q, hQ, rfl⟩ := List.mem_map.1 hL
      exact (hg Q hQ).listing) (List.mem_map.2 ⟨P, hP, rfl⟩) hx
    exact List.ne_nil_of_mem ((hm m).2 hm')
  · intro a ha
    obtain ⟨P, hP, ha⟩ := hmem a ha
    exact (hg P hP).start a ha
  · intro a ha
    obtain ⟨P, hP, ha⟩ := hmem a ha
    exact (hg P hP).value a ha
  · obtain ⟨P, hP⟩ := List.exists_mem_of_ne_nil _ hne
    rw [hRf, ← hf P hP]; exact (hg P hP).feature
  · rw [← anns_length r2]
    have := listing_length (m := Ps.flatMap Posting.anns) r4 (by
      intro a ha
      obtain ⟨P, hP, ha⟩ := hmem a ha
      exact List.mem_flatMap.2 ⟨P, hP, ha⟩)
    have e : (Ps.flatMap Posting.anns).length = (Ps.map Posting.size).sum := by
      rw [List.length_flatMap]
      congr 1
      apply List.map_congr_left
      intro P hP
      exact anns_length (hg P hP).ok
    omega

/-! ## A batch -/

/-- Annotations that can be stored. -/
structure Fine (l : List (Int × Ann)) : Prop where
  feature : ∀ x ∈ l, In64 x.1
  kept : ∀ x ∈ l, Kept x.2
  value : ∀ x ∈ l, minfinity < x.2.v ∧ x.2.v ≤ maxfinity
  stop : ∀ x ∈ l, x.2.q < maxfinity
  flat : l.Pairwise fun x y => x.1 = y.1 → ¬ inside x.2 y.2 ∧ ¬ inside y.2 x.2

theorem Fine.sublist {l m : List (Int × Ann)} (h : Fine m) (hs : l.Sublist m) : Fine l :=
  ⟨fun x hx => h.feature x (hs.subset hx), fun x hx => h.kept x (hs.subset hx),
    fun x hx => h.value x (hs.subset hx), fun x hx => h.stop x (hs.subset hx), h.flat.sublist hs⟩

theorem Fine.perm {l m : List (Int × Ann)} (h : Fine m) (hp : l.Perm m) : Fine l :=
  ⟨fun x hx => h.feature x (hp.subset hx), fun x hx => h.kept x (hp.subset hx),
    fun x hx => h.value x (hp.subset hx), fun x hx => h.stop x (hp.subset hx),
    (hp.pairwise_iff (fun h e => (h e.symm).symm)).2 h.flat⟩

theorem Fair.fine {anns : List (Int × Ann)} (h : Fair anns) :
    Fine (anns.filter fun x => decide (Kept x.2)) := by
  have hm : ∀ x ∈ anns.filter (fun x => decide (Kept x.2)), x ∈ anns ∧ Kept x.2 := by
    intro x hx
    obtain ⟨h1, h2⟩ := List.mem_filter.1 hx
    exact ⟨h1, by simpa using h2⟩
  refine ⟨fun x hx => h.feature x (hm x hx).1, fun x hx => (hm x hx).2, fun x hx => h.value x (hm x hx).1,
    fun x hx => h.stop x (hm x hx).1, ?_⟩
  have := (h.flat.filter (fun x => decide (Kept x.2)))
  rw [List.pairwise_iff_forall_sublist] at this ⊢
  intro x y hxy e
  have h1 := (hm x (hxy.subset (by simp))).2
  have h2 := (hm y (hxy.subset (by simp))).2
  exact this hxy e h1 h2

/-- Sorted by feature, then by start and end. -/
def Rising (l : List (Int × Ann)) : Prop :=
  l.Pairwise fun x y => x.1 ≤ y.1 ∧ (x.1 = y.1 → x.2.p < y.2.p ∧ x.2.q < y.2.q)

theorem sorts_rising {sort : List (Int × Ann) → List (Int × Ann)} (hs : Sorts annCmp sort)
    {l : List (Int × Ann)} (h : Fine l) : Fine (sort l) ∧ Rising (sort l) := by
  obtain ⟨h1, h2⟩ := hs l
  have hf := h.perm h1
  refine ⟨hf, ?_⟩
  refine (h2.and hf.flat).imp ?_
  rintro x y ⟨h3, h4⟩
  unfold annCmp at h3
  simp only [Bool.or_eq_false_iff, decide_eq_false_iff_not, Bool.and_eq_false_iff, beq_eq_false_iff_ne] at h3
  refine ⟨by omega, fun e => ?_⟩
  obtain ⟨h5, h6⟩ := h4 e
  unfold inside at h5 h6
  have : x.2.p ≤ y.2.p := by omega
  omega

theorem ofFeature_mem {f : Int} {l : List (Int × Ann)} {a : Ann} : a ∈ ofFeature f l ↔ (f, a) ∈ l := by
  unfold ofFeature
  rw [List.mem_map]
  constructor
  · rintro ⟨⟨g, b⟩, hx, rfl⟩
    obtain ⟨h1, h2⟩ := List.mem_filter.1 hx
    have : g = f := by simpa using h2
    subst this
    exact h1
  · intro h
    exact ⟨(f, a), List.mem_filter.2 ⟨h, by simp⟩, rfl⟩

theorem ofFeature_perm {f : Int} {l m : List (Int × Ann)} (h : l.Perm m) :
    (ofFeature f l).Perm (ofFeature f m) := (h.filter _).map _

theorem ofFeature_append (f : Int) (l m : List (Int × Ann)) :
    ofFeature f (l ++ m) = ofFeature f l ++ ofFeature f m := by simp [ofFeature]

theorem ofFeature_length (f : Int) (l : List (Int × Ann)) : (ofFeature f l).length ≤ l.length := by
  unfold ofFeature; rw [List.length_map]; exact List.length_filter_le _ _

theorem rising_listing {l : List (Int × Ann)} (h : Fine l) (hr : Rising l) (f : Int) :
    Listing (ofFeature f l) := by
  constructor
  · unfold ofFeature
    rw [List.pairwise_map]
    have := hr.filter (fun x => x.1 == f)
    rw [List.pairwise_iff_forall_sublist] at this ⊢
    intro x y hxy
    have e1 := (List.mem_filter.1 (hxy.subset (by simp : x ∈ [x, y]))).2
    have e2 := (List.mem_filter.1 (hxy.subset (by simp : y ∈ [x, y]))).2
    simp only [beq_iff_eq] at e1 e2
    exact (this hxy).2 (by omega)
  · intro a ha
    have ha := ofFeature_mem.1 ha
    have h1 := h.kept _ ha
    have h2 := h.stop _ ha
    unfold Kept at h1
    simp only at h1 h2
    refine ⟨?_, ?_, ?_⟩ <;> omega

/-- A run makes a good posting that holds it. -/
theorem run_ok {f : Int} {l : List Ann} (hne : l ≠ []) (hl : Listing l) (hs : ∀ a ∈ l, 0 ≤ a.p)
    (hv : ∀ a ∈ l, minfinity < a.v ∧ a.v ≤ maxfinity) (hf : In64 f) :
    GoodP l.length (runPosting f l) ∧ (runPosting f l).anns = l ∧ (runPosting f l).feature = f := by
  obtain ⟨h1, _, h3, h4⟩ := runPosting_ok f l (hl.sorted.imp fun h => Or.inl h.2)
  have hz : ∀ a ∈ l, plus0 a = a := by
    intro a ha
    have := hv a ha
    unfold plus0 isZero
    by_cases h0 : a.v = 0
    · cases a; simp_all
    · have : ¬ a.v = minfinity := by omega
      simp [h0, this]
  have hk : (l.filter fun a => decide (kept l a)) = l := by
    rw [List.filter_eq_self]
    intro a ha
    rw [decide_eq_true_eq]
    refine ⟨(hl.bounds a ha).2.1, ?_⟩
    intro b hb _ hq
    have := hl.wf.p_lt_iff (a := a) (b := b) ha hb
    omega
  have ha : (runPosting f l).anns = l := by rw [h4 hz, hk]
  refine ⟨⟨h1, ?_, ?_, ?_, ?_, ?_, ?_, ?_⟩, ha, h3⟩
  · rw [ha]; exact hl
  · rw [ha]; exact hne
  · rw [ha]; exact hz
  · rw [ha]; exact hs
  · rw [ha]; intro a h; have := hv a h; constructor <;> omega
  · rw [h3]; exact hf
  · rw [← anns_length h1, ha]; exact Nat.le_refl _

section
variable {N : Nat} {pc fc : Codec} (hc : Codecs N pc fc)
include hc

theorem runBytes_ok : ∀ (n : Nat) {s : List (Int × Ann)}, s.length ≤ n → s.length ≤ N → Fine s → Rising s →
    ∃ b Ps, runBytes pc fc n s = some b ∧ Written pc fc Ps b ∧ Sorted Ps ∧ (∀ P ∈ Ps, GoodP N P) ∧
      (∀ P ∈ Ps, ∃ x ∈ s, x.1 = P.feature) ∧ ∀ f, annsAt Ps f = ofFeature f s := by
  intro n
  induction n with
  | zero =>
    intro s hn _ _ _
    have : s = [] := List.eq_nil_of_length_eq_zero (by omega)
    subst this
    exact ⟨[], [], rfl, .nil, List.Pairwise.nil, by simp, by simp, fun _ => rfl⟩
  | succ n ih =>
    intro s hn hN hf hr
    match s with
    | [] =>
      exact ⟨[], [], rfl, .nil, List.Pairwise.nil, by simp, by simp, fun _ => rfl⟩
    | (g, a) :: l =>
      rw [runBytes, fromAnnotations_eq]
      have hfs : ((g, a) :: l).Pairwise fun x y => x.1 ≤ y.1 := hr.imp fun h => h.1
      have hge : ∀ x ∈ (g, a) :: l, g ≤ x.1 := by
        intro x hx
        rcases List.mem_cons.1 hx with rfl | hx
        · exact Int.le_refl _
        · exact (List.pairwise_cons.1 hfs).1 x hx
      obtain ⟨t1, t2⟩ := takeWhile_filter ((g, a) :: l) g hfs hge
      simp only [t1, t2]
      generalize hs : (g, a) :: l = s at *
      have hrun : (s.filter fun x => x.1 == g).map (·.2) = ofFeature g s := rfl
      rw [hrun]
      have hm : ∀ x ∈ ofFeature g s, (g, x) ∈ s := fun x hx => ofFeature_mem.1 hx
      obtain ⟨p1, p2, p3⟩ := run_ok (f := g) (l := ofFeature g s)
        (List.ne_nil_of_mem (ofFeature_mem.2 (by rw [← hs]; simp : (g, a) ∈ s)))
        (rising_listing hf hr g) (fun x hx => (hf.kept _ (hm x hx)).1) (fun x hx => hf.value _ (hm x hx))
        (hf.feature (g, a) (by rw [← hs]; simp))
      have p1 := p1.mono (Nat.le_trans (ofFeature_length g s) hN)
      obtain ⟨b, b1, _⟩ := write_read (p1.storable hc)
      rw [b1]
      have hsub : (s.filter fun x => x.1 != g).Sublist s := List.filter_sublist
      have hlt : (s.filter fun x => x.1 != g).length ≤ n := by
        have := List.length_filter_le (fun x : Int × Ann => x.1 != g) l
        rw [← hs, List.filter_cons]
        rw [← hs] at hn
        simp only [List.length_cons] at hn
        simp; omega
      obtain ⟨c, Ps, i1, i2, i3, i4, i5, i6⟩ := ih hlt (Nat.le_trans hsub.length_le hN) (hf.sublist hsub)
        (hr.sublist hsub)
      refine ⟨b ++ c, runPosting g (ofFeature g s) :: Ps, by simp [i1], .cons b1 i2, ?_, ?_, ?_, ?_⟩
      · refine List.pairwise_cons.2 ⟨?_, i3⟩
        intro P hP
        obtain ⟨x, hx, e⟩ := i5 P hP
        obtain ⟨h1, h2⟩ := List.mem_filter.1 hx
        have := hge x h1
        have h2 : x.1 ≠ g := by simpa using h2
        rw [p3]; omega
      · intro P hP
        rcases List.mem_cons.1 hP with rfl | hP
        · exact p1
        · exact i4 P hP
      · intro P hP
        rcases List.mem_cons.1 hP with rfl | hP
        · exact ⟨(g, a), by rw [← hs]; simp, p3.symm⟩
        · obtain ⟨x, hx, e⟩ := i5 P hP
          exact ⟨x, hsub.subset hx, e⟩
      · intro f
        rw [annsAt_cons, i6 f, p2, p3]
        by_cases h : g = f
        · subst h
          have : ofFeature g (s.filter fun x => x.1 != g) = [] := by
            unfold ofFeature
            rw [List.filter_filter, List.map_eq_nil_iff, List.filter_eq_nil_iff]
            intro x _; simp
          rw [if_pos rfl, this, List.append_nil]
        · rw [if_neg h, List.nil_append]
          unfold ofFeature
          rw [List.filter_filter]
          congr 1
          apply List.filter_congr
          intro x _
          by_cases hx : x.1 = f
          · simp [hx]; omega
          · simp [hx]

/-- Batches written to files, and the postings in the files. -/
inductive Batches (N : Nat) (pc fc : Codec) :
    List (List (Int × Ann)) → List (List UInt8) → List (List Posting) → Prop
  | nil : Batches N pc fc [] [] []
  | snoc {B Bs b bs Ps Ls} : Batches N pc fc Bs bs Ls → Written pc fc Ps b → Sorted Ps → (∀ P ∈ Ps, GoodP N P) →
      (∀ f, (annsAt Ps f).Perm (ofFeature f B)) →
      Batches N pc fc (Bs ++ [B]) (bs ++ [b]) (Ls ++ [Ps])

omit hc in
theorem WrittenAll.append : ∀ {fs : List (List UInt8)} {Ls : List (List Posting)} {gs Ms},
    WrittenAll pc fc fs Ls → WrittenAll pc fc gs Ms → WrittenAll pc fc (fs ++ gs) (Ls ++ Ms) := by
  intro fs Ls gs Ms h h'
  induction h with
  | nil => exact h'
  | cons hw _ ih => exact .cons hw ih

omit hc in
theorem Batches.facts {Bs : List (List (Int × Ann))} {bs : List (List UInt8)} {Ls : List (List Posting)}
    (h : Batches N pc fc Bs bs Ls) : WrittenAll pc fc bs Ls ∧ (∀ L ∈ Ls, Sorted L) ∧
    (∀ L ∈ Ls, ∀ P ∈ L, GoodP N P) ∧
    ∀ f, (Ls.map fun L => annsAt L f).flatten.Perm (ofFeature f Bs.flatten) := by
  induction h with
  | nil => exact ⟨.nil, by simp, by simp, fun f => by simp [ofFeature]⟩
  | snoc _ h2 h3 h4 h5 ih =>
    obtain ⟨i1, i2, i3, i4⟩ := ih
    refine ⟨i1.append (.cons h2 .nil), ?_, ?_, ?_⟩
    · intro L hL
      rcases List.mem_append.1 hL with hL | hL
      · exact i2 L hL
      · rw [List.mem_singleton] at hL; subst hL; exact h3
    · intro L hL
      rcases List.mem_append.1 hL with hL | hL
      · exact i3 L hL
      · rw [List.mem_singleton] at hL; subst hL; exact h4
    · intro f
      rw [List.map_append, List.flatten_append, List.flatten_append, ofFeature_append]
      refine (i4 f).append ?_
      simpa using h5 f

/-- What has been added so far is in the files or still waiting. -/
def Added (N : Nat) (pc fc : Codec) (a : Adding) (xs : List (Int × Ann)) : Prop :=
  ∃ Bs Ls, Batches N pc fc Bs a.files Ls ∧ Bs.flatten ++ a.added = xs

variable {sort : List (Int × Ann) → List (Int × Ann)} (hs : Sorts annCmp sort)
include hs

theorem flush_ok {a : Adding} {xs : List (Int × Ann)} (h : Added N pc fc a xs) (hf : Fine xs)
    (hN : xs.length ≤ N) : ∃ a', a.flush pc fc sort = some a' ∧ Added N pc fc a' xs ∧ a'.added = [] := by
  obtain ⟨Bs, Ls, h1, h2⟩ := h
  have hsub : a.added.Sublist xs := by rw [← h2]; exact List.sublist_append_right _ _
  obtain ⟨s1, s2⟩ := sorts_rising hs (hf.sublist hsub)
  have hp := (hs a.added).1
  obtain ⟨b, Ps, r1, r2, r3, r4, _, r6⟩ := runBytes_ok hc a.added.length (s := sort a.added)
    (by rw [hp.length_eq]; exact Nat.le_refl _) (by rw [hp.length_eq]; exact Nat.le_trans hsub.length_le hN) s1 s2
  refine ⟨_, by unfold Adding.flush; rw [r1]; rfl, ⟨Bs ++ [a.added], Ls ++ [Ps], ?_, ?_⟩, rfl⟩
  · refine .snoc h1 r2 r3 r4 ?_
    intro f
    rw [r6 f]
    exact ofFeature_perm hp
  · simp [h2]

theorem annotateAll_ok (limit : Nat) : ∀ (xs : List (Int × Ann)) {a : Adding} {done : List (Int × Ann)},
    Added N pc fc a (done.filter fun x => decide (Kept x.2)) →
    Fine ((done ++ xs).filter fun x => decide (Kept x.2)) → (done ++ xs).length ≤ N →
    ∃ a', Adding.annotateAll pc fc sort limit a xs = some a' ∧
      Added N pc fc a' ((done ++ xs).filter fun x => decide (Kept x.2)) := by
  intro xs
  induction xs with
  | nil => intro a done h _ _; exact ⟨a, rfl, by simpa using h⟩
  | cons x xs ih =>
    intro a done h hf hN
    have e : done ++ x :: xs = (done ++ [x]) ++ xs := by simp
    rw [e] at hf hN ⊢
    rw [Adding.annotateAll, Adding.annotate]
    by_cases hk : Kept x.2
    · have hk' : 0 ≤ x.2.p ∧ x.2.p ≤ x.2.q := hk
      rw [if_pos hk']
      have hA : Added N pc fc { a with added := a.added ++ [x] }
          ((done ++ [x]).filter fun x => decide (Kept x.2)) := by
        obtain ⟨Bs, Ls, h1, h2⟩ := h
        exact ⟨Bs, Ls, h1, by rw [List.filter_append, ← h2]; simp [hk]⟩
      by_cases hl : (a.added ++ [x]).length > limit
      · have hfx : Fine ((done ++ [x]).filter fun x => decide (Kept x.2)) :=
          hf.sublist ((List.sublist_append_left _ _).filter _)
        obtain ⟨a', f1, f2, _⟩ := flush_ok hc hs hA hfx (by
          have h1 := List.length_filter_le (fun x : Int × Ann => decide (Kept x.2)) (done ++ [x])
          rw [List.length_append] at hN; omega)
        simp only [hl, if_true, f1]
        exact ih f2 hf hN
      · simp only [hl, if_false]
        exact ih hA hf hN
    · have hk' : ¬ (0 ≤ x.2.p ∧ x.2.p ≤ x.2.q) := hk
      rw [if_neg hk']
      refine ih ?_ hf hN
      rw [List.filter_append]
      simpa [hk] using h

theorem finish_ok {a : Adding} {xs : List (Int × Ann)} (h : Added N pc fc a xs) (hf : Fine xs)
    (hN : xs.length ≤ N) : ∃ a' Bs Ls, a.finish pc fc sort = some a' ∧ Batches N pc fc Bs a'.files Ls ∧
      Bs.flatten = xs := by
  unfold Adding.finish
  by_cases h0 : a.added.length > 0
  · rw [if_pos h0]
    obtain ⟨a', f1, ⟨Bs, Ls, f2, f3⟩, f4⟩ := flush_ok hc hs h hf hN
    rw [f4, List.append_nil] at f3
    exact ⟨a', Bs, Ls, f1, f2, f3⟩
  · rw [if_neg h0]
    obtain ⟨Bs, Ls, f2, f3⟩ := h
    have : a.added = [] := List.eq_nil_of_length_eq_zero (by omega)
    rw [this, List.append_nil] at f3
    exact ⟨a, Bs, Ls, rfl, f2, f3⟩

end

/-! ## A transaction -/

/-- The postings the two files hold. -/
structure Holds (K : Nat) (pc fc : Codec) (d : Files) (Rs : List Posting) : Prop where
  filed : Filed pc fc 0 Rs d.idx d.pst
  sorted : Sorted Rs
  good : ∀ R ∈ Rs, GoodP K R

/-- The annotations of an outcome. -/
theorem outcome_anns {N : Nat} {Ls : List (List Posting)} {Rs : List Posting} {f : Int}
    (h : Outcome annCombine Ls Rs f) (hs : ∀ L ∈ Ls, Sorted L) (hg : ∀ L ∈ Ls, ∀ P ∈ L, GoodP N P) (a : Ann) :
    a ∈ annsAt Rs f ↔ unionL (Ls.map fun L => annsAt L f) a := by
  rw [← unionL_filter, ← ofF_anns f hs hg]
  obtain ⟨h1, h2⟩ := h
  unfold annsAt
  by_cases hne : ofF f Ls = []
  · rw [h1 hne, hne]
    simp [unionL_iff, newest]
  · obtain ⟨R, r1, r2⟩ := h2 hne
    have hf : ∀ P ∈ ofF f Ls, P.feature = f := fun P hP => by simpa using (List.mem_filter.1 hP).2
    have hg' : ∀ P ∈ ofF f Ls, GoodP N P := by
      intro P hP
      obtain ⟨L, hL, hP⟩ := List.mem_flatten.1 (List.mem_filter.1 hP).1
      exact hg L hL P hP
    obtain ⟨R', c1, _, _, c4⟩ := annCombine_ok hne hg' hf (Nat.le_refl _)
    rw [r1] at c1; cases c1
    rw [r2, ← c4]; simp

section
variable {N : Nat} {pc fc : Codec} (hc : Codecs N pc fc)
variable {sort : List (Int × Ann) → List (Int × Ann)} (hs : Sorts annCmp sort)
include hc hs

theorem prepare_ok {K : Nat} {old : Files} {Rs : List Posting} (h : Holds K pc fc old Rs) (limit : Nat)
    {anns : List (Int × Ann)} (hf : Fair anns) (hN : K + anns.length ≤ N) :
    ∃ d Rs', prepare pc fc sort limit anns old = some d ∧ Holds (K + anns.length) pc fc d Rs' ∧
      ∀ f, ∃ Ls : List (List Ann), (∀ L ∈ Ls, Listing L) ∧
        Ls.flatten.Perm (ofFeature f (anns.filter fun x => decide (Kept x.2))) ∧
        ∀ a, a ∈ annsAt Rs' f ↔ unionL (annsAt Rs f :: Ls) a := by
  unfold prepare
  have hlen := List.length_filter_le (fun x : Int × Ann => decide (Kept x.2)) anns
  obtain ⟨a, a1, a2⟩ := annotateAll_ok hc hs limit anns (a := {}) (done := []) ⟨[], [], .nil, rfl⟩
    hf.fine (by simp; omega)
  rw [List.nil_append] at a2
  obtain ⟨a', Bs, Ls, b1, b2, b3⟩ := finish_ok hc hs a2 hf.fine (by omega)
  simp only [a1, b1]
  obtain ⟨w1, w2, w3, w4⟩ := b2.facts
  rw [b3] at w4
  have hgN : ∀ R ∈ Rs, GoodP N R := fun R hR => (h.good R hR).mono (by omega)
  have hS : ∀ L ∈ Rs :: Ls, Sorted L := by
    intro L hL
    rcases List.mem_cons.1 hL with rfl | hL
    · exact h.sorted
    · exact w2 L hL
  have hG : ∀ L ∈ Rs :: Ls, ∀ P ∈ L, GoodP N P := by
    intro L hL
    rcases List.mem_cons.1 hL with rfl | hL
    · exact hgN
    · exact w3 L hL
  have hcomb : ∀ f, ofF f (Rs :: Ls) ≠ [] → ∃ R, annCombine f (ofF f (Rs :: Ls)) = some R ∧
      GoodP (K + anns.length) R ∧ R.feature = f := by
    intro f hne
    obtain ⟨R, r1, r2, r3, _⟩ := annCombine_ok (M := K + anns.length) hne (N := N) (by
        intro P hP
        obtain ⟨L, hL, hP⟩ := List.mem_flatten.1 (List.mem_filter.1 hP).1
        exact hG L hL P hP)
      (fun P hP => by simpa using (List.mem_filter.1 hP).2) (by
        rw [ofF_size f hG, List.map_cons, List.flatten_cons, List.length_append, (w4 f).length_eq]
        have := annsAt_length h.sorted h.good f
        have := ofFeature_length f (anns.filter fun x => decide (Kept x.2))
        omega)
    exact ⟨R, r1, r2, r3⟩
  obtain ⟨Rs', d, m1, m2, m3, m4, m5⟩ := mergeFiles_ok hc (.cons h.filed.written w1) hS hG
    (fun f hne => by
      obtain ⟨R, r1, r2, r3⟩ := hcomb f hne
      exact ⟨R, r1, r2.mono (by omega), r3⟩)
  refine ⟨d, Rs', m1, ⟨m2, m3, ?_⟩, ?_⟩
  · intro R hR
    have := m5 R.feature
    by_cases hne : ofF R.feature (Rs :: Ls) = []
    · have h0 := this.1 hne
      rw [List.filter_eq_nil_iff] at h0
      exact absurd (by simp) (h0 R hR)
    · obtain ⟨R1, r1, r2⟩ := this.2 hne
      obtain ⟨R2, q1, q2, _⟩ := hcomb _ hne
      rw [r1] at q1; cases q1
      have : R ∈ Rs'.filter fun P => P.feature == R.feature := List.mem_filter.2 ⟨hR, by simp⟩
      rw [r2, List.mem_singleton] at this
      rw [this]; exact q2
  · intro f
    refine ⟨Ls.map fun L => annsAt L f, ?_, w4 f, ?_⟩
    · intro L hL
      obtain ⟨Ps, hPs, rfl⟩ := List.mem_map.1 hL
      exact annsAt_listing (w2 Ps hPs) (w3 Ps hPs) f
    · intro a
      have := outcome_anns (m5 f) hS hG a
      simpa using this

end

/-! ## Histories -/

theorem given_append (ts us : List Txn) (f : Int) (a : Ann) :
    Given (ts ++ us) f a ↔ Given ts f a ∨ Given us f a := by
  unfold Given
  constructor
  · rintro ⟨t, ht, h⟩
    rcases List.mem_append.1 ht with ht | ht
    · exact Or.inl ⟨t, ht, h⟩
    · exact Or.inr ⟨t, ht, h⟩
  · rintro (⟨t, ht, h⟩ | ⟨t, ht, h⟩)
    · exact ⟨t, List.mem_append.2 (Or.inl ht), h⟩
    · exact ⟨t, List.mem_append.2 (Or.inr ht), h⟩

theorem latest_snoc (ts : List Txn) (t : Txn) (f : Int) (a : Ann) :
    Latest (ts ++ [t]) f a ↔ Given [t] f a ∨ (Latest ts f a ∧ ¬ ∃ b, Given [t] f b ∧ b.p = a.p ∧ b.q = a.q) := by
  constructor
  · rintro ⟨before, u, after, he, hg, hn⟩
    rcases List.eq_nil_or_concat after with rfl | ⟨after', v, rfl⟩
    · obtain ⟨_, h2⟩ := List.append_inj' he rfl
      cases h2
      exact Or.inl hg
    · rw [List.concat_eq_append] at he hn
      rw [← List.cons_append, ← List.append_assoc] at he
      obtain ⟨h1, h2⟩ := List.append_inj' he rfl
      cases h2
      refine Or.inr ⟨⟨before, u, after', h1, hg, ?_⟩, ?_⟩
      · rintro ⟨b, hb, e⟩; exact hn ⟨b, (given_append _ _ _ _).2 (Or.inl hb), e⟩
      · rintro ⟨b, hb, e⟩; exact hn ⟨b, (given_append _ _ _ _).2 (Or.inr hb), e⟩
  · rintro (hg | ⟨⟨before, u, after, he, hg, hn⟩, hn'⟩)
    · refine ⟨ts, t, [], rfl, hg, ?_⟩
      rintro ⟨b, ⟨_, hx, _⟩, _⟩; simp at hx
    · refine ⟨before, u, after ++ [t], by rw [he]; simp, hg, ?_⟩
      rintro ⟨b, hb, e⟩
      rcases (given_append _ _ _ _).1 hb with hb | hb
      · exact hn ⟨b, hb, e⟩
      · exact hn' ⟨b, hb, e⟩

theorem given_one {t : Txn} {f : Int} {a : Ann} (h : t.commit = true) :
    Given [t] f a ↔ a ∈ ofFeature f (t.anns.filter fun x => decide (Kept x.2)) := by
  rw [ofFeature_mem, List.mem_filter]
  unfold Given
  simp [h]

theorem given_none {t : Txn} {f : Int} {a : Ann} (h : t.commit = false) : ¬ Given [t] f a := by
  unfold Given
  simp [h]

/-- Lists of annotations of which none contains another: each is the newest of its interval. -/
theorem newest_flat : ∀ {Ls : List (List Ann)}, Ls.flatten.Pairwise (fun a b => ¬ same a b ∧ ¬ same b a) →
    ∀ r, newest Ls r ↔ r ∈ Ls.flatten := by
  intro Ls
  induction Ls with
  | nil => intro _ r; simp [newest]
  | cons L Ls ih =>
    intro h r
    rw [List.flatten_cons] at h
    obtain ⟨_, h2, h3⟩ := List.pairwise_append.1 h
    rw [newest, ih h2, List.flatten_cons, List.mem_append]
    constructor
    · rintro (h | h)
      · exact Or.inr h
      · exact Or.inl h.1
    · rintro (h | h)
      · refine Or.inr ⟨h, ?_⟩
        intro L' hL' a ha
        exact (h3 r h a (List.mem_flatten.2 ⟨L', hL', ha⟩)).2
      · exact Or.inl h

/-- What is in the files after a history. -/
structure After (K : Nat) (pc fc : Codec) (ts : List Txn) (d : Files) (Rs : List Posting) : Prop where
  holds : Holds K pc fc d Rs
  hist : ∀ f, ∃ Hs : List (List Ann), (∀ L ∈ Hs, Listing L) ∧ (∀ a, a ∈ annsAt Rs f ↔ unionL Hs a) ∧
    (∀ a, (∃ L ∈ Hs, a ∈ L) ↔ Given ts f a) ∧ ∀ a, newest Hs a ↔ Latest ts f a

theorem After.visible {K : Nat} {pc fc : Codec} {ts : List Txn} {d : Files} {Rs : List Posting}
    (h : After K pc fc ts d Rs) (f : Int) (a : Ann) : a ∈ annsAt Rs f ↔ Visible ts f a := by
  obtain ⟨Hs, _, h2, h3, h4⟩ := h.hist f
  rw [h2, unionL_iff, h4]
  unfold Visible least same
  refine and_congr Iff.rfl ?_
  constructor
  · intro h b hb hin
    obtain ⟨L, hL, hb⟩ := (h3 b).2 hb
    exact h L hL b hb hin
  · intro h L hL b hb hin
    exact h b ((h3 b).1 ⟨L, hL, hb⟩) hin

theorem after_nil (pc fc : Codec) : After 0 pc fc [] {} [] := by
  refine ⟨⟨.nil, List.Pairwise.nil, by simp⟩, ?_⟩
  intro f
  refine ⟨[], by simp, ?_, ?_, ?_⟩
  · intro a; simp [annsAt, unionL_iff, newest]
  · intro a; simp [Given]
  · intro a; simp [newest, Latest]

section
variable {N : Nat} {pc fc : Codec} (hc : Codecs N pc fc)
variable {sort : List (Int × Ann) → List (Int × Ann)} (hs : Sorts annCmp sort)
include hc hs

theorem transact_ok {K : Nat} {ts : List Txn} {d : Files} {Rs : List Posting} (h : After K pc fc ts d Rs)
    (limit : Nat) {t : Txn} (hf : t.commit = true → Fair t.anns) (hN : K + committed [t] ≤ N) :
    ∃ d' Rs', transact pc fc sort limit d t = some d' ∧ After (K + committed [t]) pc fc (ts ++ [t]) d' Rs' := by
  unfold transact
  cases ht : t.commit with
  | false =>
    refine ⟨d, Rs, by simp, ?_⟩
    have e : committed [t] = 0 := by simp [committed, ht]
    rw [e]
    refine ⟨h.holds, ?_⟩
    intro f
    obtain ⟨Hs, h1, h2, h3, h4⟩ := h.hist f
    refine ⟨Hs, h1, h2, ?_, ?_⟩
    · intro a
      rw [h3, given_append]
      exact ⟨Or.inl, fun h => h.elim id fun h => absurd h (given_none ht)⟩
    · intro a
      rw [h4, latest_snoc]
      constructor
      · intro h; exact Or.inr ⟨h, fun ⟨b, hb, _⟩ => given_none ht hb⟩
      · rintro (h | h)
        · exact absurd h (given_none ht)
        · exact h.1
  | true =>
    have e : committed [t] = t.anns.length := by simp [committed, ht]
    rw [e] at hN ⊢
    obtain ⟨d', Rs', p1, p2, p3⟩ := prepare_ok hc hs h.holds limit (hf ht) hN
    refine ⟨d', Rs', by simp [p1], p2, ?_⟩
    intro f
    obtain ⟨Hs, h1, h2, h3, h4⟩ := h.hist f
    obtain ⟨Ls, l1, l2, l3⟩ := p3 f
    have hmem : ∀ a, (∃ L ∈ Ls, a ∈ L) ↔ Given [t] f a := by
      intro a
      rw [given_one ht, ← l2.mem_iff, List.mem_flatten]
    have hflat : Ls.flatten.Pairwise (fun a b => ¬ same a b ∧ ¬ same b a) := by
      rw [l2.pairwise_iff (fun h => ⟨h.2, h.1⟩)]
      unfold ofFeature
      rw [List.pairwise_map]
      have := (hf ht).fine.flat.filter (fun x => x.1 == f)
      rw [List.pairwise_iff_forall_sublist] at this ⊢
      intro x y hxy
      have e1 := (List.mem_filter.1 (hxy.subset (by simp : x ∈ [x, y]))).2
      have e2 := (List.mem_filter.1 (hxy.subset (by simp : y ∈ [x, y]))).2
      simp only [beq_iff_eq] at e1 e2
      have := this hxy (by omega)
      unfold inside at this
      unfold same
      constructor <;> omega
    refine ⟨Hs ++ Ls, ?_, ?_, ?_, ?_⟩
    · intro L hL
      rcases List.mem_append.1 hL with hL | hL
      · exact h1 L hL
      · exact l1 L hL
    · intro a
      have := unionL_group (A := []) (G := Hs) (B := Ls) (M := annsAt Rs f) (X := fun _ => False)
        (Y := fun _ => False) h1 (fun a => by rw [h2]; simp) (by simp) (by simp) a (by simp)
      rw [l3]
      simpa using this.symm
    · intro a
      rw [given_append, ← h3, ← hmem]
      constructor
      · rintro ⟨L, hL, ha⟩
        rcases List.mem_append.1 hL with hL | hL
        · exact Or.inl ⟨L, hL, ha⟩
        · exact Or.inr ⟨L, hL, ha⟩
      · rintro (⟨L, hL, ha⟩ | ⟨L, hL, ha⟩)
        · exact ⟨L, by simp [hL], ha⟩
        · exact ⟨L, by simp [hL], ha⟩
    · intro a
      rw [newest_append, newest_flat hflat, latest_snoc, h4, List.mem_flatten, hmem]
      refine or_congr Iff.rfl (and_congr Iff.rfl ?_)
      constructor
      · rintro h ⟨b, hb, e⟩
        obtain ⟨L, hL, hb⟩ := (hmem b).2 hb
        exact h L hL b hb e
      · intro h L hL b hb e
        exact h ⟨b, (hmem b).1 ⟨L, hL, hb⟩, e⟩

theorem transactAll_ok (limit : Nat) : ∀ (us : List Txn) {K : Nat} {ts : List Txn} {d : Files} {Rs : List Posting},
    After K pc fc ts d Rs → (∀ t ∈ us, t.commit = true → Fair t.anns) → K + committed us ≤ N →
    ∃ d' Rs', transactAll pc fc sort limit d us = some d' ∧ After (K + committed us) pc fc (ts ++ us) d' Rs' := by
  intro us
  induction us with
  | nil => intro K ts d Rs h _ _; exact ⟨d, Rs, rfl, by simpa [committed] using h⟩
  | cons u us ih =>
    intro K ts d Rs h hf hN
    have e : committed (u :: us) = committed [u] + committed us := by simp [committed]
    rw [e] at hN ⊢
    obtain ⟨d1, R1, t1, t2⟩ := transact_ok hc hs h limit (hf u (by simp)) (by omega)
    obtain ⟨d2, R2, i1, i2⟩ := ih t2 (fun t ht => hf t (by simp [ht])) (by omega)
    refine ⟨d2, R2, by rw [transactAll, t1]; exact i1, ?_⟩
    rw [← Nat.add_assoc]
    simpa using i2

end
end Verif.Static
