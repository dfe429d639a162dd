import Verif.Store.IndexProof
/-
  Building a shard's index from the annotations of a transaction.
-/
namespace Verif.Store
open Verif.Hopper Verif.Gcl

/-- what the loop keeps: valid annotations that do not start before the last one kept -/
def keepGe : Option Ann → List Ann → List Ann
  | _, [] => []
  | last, a :: l =>
    if a.p ≤ a.q ∧ (∀ m ∈ last, m.p ≤ a.p ∧ m.q ≤ a.q) then a :: keepGe (some a) l
    else keepGe last l

/-- the arrays being built hold this list -/
structure Holding (b : Building) (K : List Ann) : Prop where
  ps : b.ps = K.map (·.p)
  qs : b.qs = K.map (·.q)
  fs : b.fs = K.map (·.v)
  clearQ : b.clearQ = true → ∀ a ∈ K, a.p = a.q
  clearF : b.clearF = true → ∀ a ∈ K, isZero a.v = true
  valid : ∀ a ∈ K, a.p ≤ a.q

theorem add_ok {b : Building} {K : List Ann} (h : Holding b K) (a : Ann) :
    Holding (b.add a)
      (if a.p ≤ a.q ∧ (∀ m ∈ K.getLast?, m.p ≤ a.p ∧ m.q ≤ a.q) then K ++ [a] else K) := by
  obtain ⟨h1, h2, h3, h4, h5, h6⟩ := h
  have hp : b.ps.getLast? = K.getLast?.map (·.p) := by rw [h1, List.getLast?_map]
  have hq : b.qs.getLast? = K.getLast?.map (·.q) := by rw [h2, List.getLast?_map]
  unfold Building.add
  by_cases hv : a.p ≤ a.q
  · rw [if_pos hv]
    rw [hp, hq]
    have keep : Holding (b.flags a) K := by
      refine ⟨h1, h2, h3, ?_, ?_, h6⟩
      · intro hc
        simp only [Building.flags, Bool.and_eq_true] at hc
        exact h4 hc.1
      · intro hc
        simp only [Building.flags, Bool.and_eq_true] at hc
        exact h5 hc.1
    have push : Holding ((b.flags a).put a) (K ++ [a]) := by
      refine ⟨by simp [Building.put, Building.flags, h1], by simp [Building.put, Building.flags, h2],
        by simp [Building.put, Building.flags, h3], ?_, ?_, ?_⟩
      · intro hc x hx
        simp only [Building.put, Building.flags, Bool.and_eq_true, Bool.not_eq_true',
          decide_eq_false_iff_not] at hc
        rcases List.mem_append.1 hx with hx | hx
        · exact h4 hc.1 x hx
        · rw [List.mem_singleton] at hx; subst hx; omega
      · intro hc x hx
        simp only [Building.put, Building.flags, Bool.and_eq_true] at hc
        rcases List.mem_append.1 hx with hx | hx
        · exact h5 hc.1 x hx
        · rw [List.mem_singleton] at hx; subst hx; exact hc.2
      · intro x hx
        rcases List.mem_append.1 hx with hx | hx
        · exact h6 x hx
        · rw [List.mem_singleton] at hx; subst hx; exact hv
    cases hK : K.getLast? with
    | none =>
      simp only [Option.map_none]
      rw [if_pos ⟨hv, by simp⟩]
      exact push
    | some m =>
      simp only [Option.map_some]
      by_cases hc : a.p ≥ m.p ∧ a.q ≥ m.q
      · rw [if_pos hc, if_pos ⟨hv, by rintro _ ⟨⟩; exact hc⟩]; exact push
      · rw [if_neg hc, if_neg (by rintro ⟨_, h⟩; exact hc (h m rfl))]; exact keep
  · rw [if_neg hv, if_neg (by rintro ⟨h, _⟩; exact hv h)]
    exact ⟨h1, h2, h3, h4, h5, h6⟩

theorem addAll_ok : ∀ (l : List Ann) {b : Building} {K : List Ann}, Holding b K →
    Holding (l.foldl Building.add b) (K ++ keepGe K.getLast? l) := by
  intro l
  induction l with
  | nil => intro b K h; simpa [keepGe] using h
  | cons a l ih =>
    intro b K h
    have := ih (add_ok h a)
    rw [List.foldl_cons, keepGe]
    by_cases hc : a.p ≤ a.q ∧ (∀ m ∈ K.getLast?, m.p ≤ a.p ∧ m.q ≤ a.q)
    · rw [if_pos hc] at this ⊢
      simpa using this
    · rw [if_neg hc] at this ⊢
      exact this

/-- the order of a sorted run: by end, and by start downwards -/
def ordered (a b : Ann) : Prop := a.q < b.q ∨ (a.q = b.q ∧ a.p ≥ b.p)

/-- is kept: valid, and no other valid annotation starts after it and ends by its end -/
def kept (l : List Ann) (a : Ann) : Prop :=
  a.p ≤ a.q ∧ ∀ b ∈ l, b.p ≤ b.q → b.q ≤ a.q → b.p ≤ a.p

instance (l : List Ann) (a : Ann) : Decidable (kept l a) := by unfold kept; infer_instance

theorem keepGe_eq : ∀ (l : List Ann) (last : Option Ann), l.Pairwise ordered →
    (∀ m ∈ last, ∀ x ∈ l, m.q ≤ x.q) →
    keepGe last l = l.filter fun a => decide (kept l a ∧ ∀ m ∈ last, m.p ≤ a.p) := by
  intro l
  induction l with
  | nil => intro last _ _; rfl
  | cons a l ih =>
    intro last hs hl
    obtain ⟨s1, s2⟩ := List.pairwise_cons.1 hs
    have keptCons : ∀ x ∈ l, (kept (a :: l) x ↔ kept l x ∧ (a.p ≤ a.q → a.p ≤ x.p)) := by
      intro x hx
      have := s1 x hx
      unfold kept ordered at *
      constructor
      · rintro ⟨h1, h2⟩
        exact ⟨⟨h1, fun b hb => h2 b (by simp [hb])⟩, fun hv => h2 a (by simp) hv (by omega)⟩
      · rintro ⟨⟨h1, h2⟩, h3⟩
        refine ⟨h1, fun b hb hv hq => ?_⟩
        rcases List.mem_cons.1 hb with rfl | hb
        · exact h3 hv
        · exact h2 b hb hv hq
    rw [keepGe, List.filter_cons]
    by_cases hc : a.p ≤ a.q ∧ (∀ m ∈ last, m.p ≤ a.p ∧ m.q ≤ a.q)
    · have ha : kept (a :: l) a ∧ ∀ m ∈ last, m.p ≤ a.p := by
        refine ⟨⟨hc.1, fun b hb hv hq => ?_⟩, fun m hm => (hc.2 m hm).1⟩
        rcases List.mem_cons.1 hb with rfl | hb
        · exact Int.le_refl _
        · have := s1 b hb; unfold ordered at this; omega
      rw [if_pos hc, if_pos (decide_eq_true ha), ih (some a) s2]
      · congr 1
        apply List.filter_congr
        intro x hx
        rw [decide_eq_decide, keptCons x hx]
        constructor
        · rintro ⟨h1, h2⟩
          have := h2 a rfl
          exact ⟨⟨h1, fun _ => this⟩, fun m hm => by have := (hc.2 m hm).1; omega⟩
        · rintro ⟨⟨h1, h2⟩, h3⟩
          exact ⟨h1, fun m hm => by cases hm; exact h2 hc.1⟩
      · intro m hm x hx
        cases hm
        have := s1 x hx; unfold ordered at this; omega
    · have ha : ¬ (kept (a :: l) a ∧ ∀ m ∈ last, m.p ≤ a.p) := by
        rintro ⟨h1, h2⟩
        exact hc ⟨h1.1, fun m hm => ⟨h2 m hm, hl m hm a (by simp)⟩⟩
      rw [if_neg hc, if_neg (by simpa using ha), ih last s2 (fun m hm x hx => hl m hm x (by simp [hx]))]
      apply List.filter_congr
      intro x hx
      rw [decide_eq_decide, keptCons x hx]
      constructor
      · rintro ⟨h1, h2⟩
        refine ⟨⟨h1, fun hv => ?_⟩, h2⟩
        -- the annotation was dropped, so it starts before the last kept
        by_cases hm : ∀ m ∈ last, m.p ≤ a.p
        · exact absurd ⟨hv, fun m hm' => ⟨hm m hm', hl m hm' a (by simp)⟩⟩ hc
        · simp only [Classical.not_forall] at hm
          obtain ⟨m, hm, hlt⟩ := hm
          have := h2 m hm; omega
      · rintro ⟨⟨h1, _⟩, h2⟩; exact ⟨h1, h2⟩

/-- the posting made from a run -/
def runPosting (f : Int) (l : List Ann) : Posting :=
  let b : Building := l.foldl Building.add {}
  { feature := f, ps := b.ps, qs := if b.clearQ then [] else b.qs, fs := if b.clearF then [] else b.fs }

theorem runPosting_ok (f : Int) (l : List Ann) (hs : l.Pairwise ordered) :
    (runPosting f l).Ok ∧ (runPosting f l).view = (l.filter fun a => decide (kept l a)).map plus0 ∧
    (runPosting f l).feature = f ∧
    ((∀ a ∈ l, plus0 a = a) → (runPosting f l).anns = l.filter fun a => decide (kept l a)) := by
  have hkl : ∀ a ∈ l.filter fun a => decide (kept l a), a ∈ l := fun a ha => (List.mem_filter.1 ha).1
  have h := addAll_ok l (b := {}) (K := []) ⟨rfl, rfl, rfl, by simp, by simp, by simp⟩
  simp only [List.nil_append, List.getLast?_nil] at h
  have hk := keepGe_eq l none hs (by simp)
  simp only [Option.mem_def, reduceCtorEq, false_implies, implies_true, and_true] at hk
  rw [hk] at h
  generalize (l.filter fun a => decide (kept l a)) = K at h hkl ⊢
  obtain ⟨h1, h2, h3, h4, h5, h6⟩ := h
  generalize hb : l.foldl Building.add {} = b at h1 h2 h3 h4 h5
  have hok : (runPosting f l).Ok := by
    unfold runPosting Posting.Ok
    rw [hb]
    refine ⟨?_, ?_⟩
    · by_cases hc : b.clearQ = true
      · left; simp [hc]
      · right; simp [hc, h1, h2]
    · by_cases hc : b.clearF = true
      · left; simp [hc]
      · right; simp [hc, h1, h3]
  have key : (runPosting f l).view = K.map plus0 ∧
      ((∀ a ∈ K, plus0 a = a) → (runPosting f l).anns = K) := ?_
  · exact ⟨hok, key.1, rfl, fun hz => key.2 fun a ha => hz a (hkl a ha)⟩
  rw [Posting.view, anns_eq hok]
  have e1 : (runPosting f l).ps = K.map (·.p) := by unfold runPosting; rw [hb]; exact h1
  have e2 : (runPosting f l).ends = K.map (·.q) := by
    unfold Posting.ends
    split
    · rename_i hq
      rw [e1]
      unfold runPosting at hq
      rw [hb] at hq
      by_cases hc : b.clearQ = true
      · exact List.map_congr_left fun a ha => h4 hc a ha
      · simp only [hc, Bool.false_eq_true, if_false] at hq
        rw [h2] at hq
        simp only [List.map_eq_nil_iff] at hq
        rw [hq]; rfl
    · rename_i hq
      unfold runPosting at hq ⊢
      rw [hb] at hq ⊢
      by_cases hc : b.clearQ = true
      · simp [hc] at hq
      · simp only [hc, Bool.false_eq_true, if_false]; exact h2
  have e3 : (runPosting f l).vals = K.map (·.v) ∨
      ((runPosting f l).vals = K.map (fun _ => 0) ∧ ∀ a ∈ K, isZero a.v = true) := by
    unfold Posting.vals
    split
    · rename_i hq
      rw [e1]
      unfold runPosting at hq
      rw [hb] at hq
      by_cases hc : b.clearF = true
      · right
        exact ⟨by rw [List.length_map, List.map_const'], h5 hc⟩
      · simp only [hc, Bool.false_eq_true, if_false] at hq
        rw [h3] at hq
        simp only [List.map_eq_nil_iff] at hq
        left; rw [hq]; rfl
    · rename_i hq
      unfold runPosting at hq ⊢
      rw [hb] at hq ⊢
      by_cases hc : b.clearF = true
      · simp [hc] at hq
      · left; simp only [hc, Bool.false_eq_true, if_false]; exact h3
  have z3 : ∀ (K : List Ann) (g : Ann → Int), zip3 (K.map (·.p)) (K.map (·.q)) (K.map g) =
      K.map fun a => ⟨a.p, a.q, g a⟩ := by
    intro K g
    induction K with
    | nil => rfl
    | cons a K ih => simp only [List.map_cons, zip3, ih]
  rw [e1, e2]
  rcases e3 with e3 | ⟨e3, hz⟩
  · rw [e3, z3]
    exact ⟨by rw [List.map_map]; rfl, fun _ => List.map_id K⟩
  · rw [e3, z3]
    refine ⟨?_, fun hp => ?_⟩
    · rw [List.map_map]
      apply List.map_congr_left
      intro a ha
      simp [plus0, hz a ha]
    · conv => rhs; rw [← List.map_id K]
      apply List.map_congr_left
      intro a ha
      have := hp a ha
      simp only [plus0, hz a ha, if_true] at this
      exact this

theorem fromAnnotations_eq (f : Int) (a : Ann) (l : List (Int × Ann)) :
    fromAnnotations ((f, a) :: l) =
      some (runPosting f ((((f, a) :: l).takeWhile fun x => x.1 == f).map (·.2)),
        ((f, a) :: l).dropWhile fun x => x.1 == f) := by
  unfold fromAnnotations runPosting
  simp only [List.foldl_map]

/-- sorted by feature -/
theorem takeWhile_filter : ∀ (l : List (Int × Ann)) (f : Int), l.Pairwise (fun x y => x.1 ≤ y.1) →
    (∀ x ∈ l, f ≤ x.1) →
    l.takeWhile (fun x => x.1 == f) = l.filter (fun x => x.1 == f) ∧
    l.dropWhile (fun x => x.1 == f) = l.filter (fun x => x.1 != f) := by
  intro l
  induction l with
  | nil => intro f _ _; exact ⟨rfl, rfl⟩
  | cons x l ih =>
    intro f hs hf
    obtain ⟨s1, s2⟩ := List.pairwise_cons.1 hs
    obtain ⟨i1, i2⟩ := ih f s2 (fun y hy => hf y (by simp [hy]))
    rw [List.takeWhile_cons, List.dropWhile_cons, List.filter_cons, List.filter_cons]
    by_cases h : x.1 = f
    · simp [h, i1, i2]
    · have hgt : ∀ y ∈ x :: l, y.1 ≠ f := by
        intro y hy
        have := hf x (by simp)
        rcases List.mem_cons.1 hy with rfl | hy
        · exact h
        · have := s1 y hy; omega
      simp only [beq_iff_eq, h, bne_iff_ne, ne_eq, not_false_eq_true, if_true, if_false]
      constructor
      · symm; rw [List.filter_eq_nil_iff]; intro y hy; simpa using hgt y (by simp [hy])
      · congr 1; symm; rw [List.filter_eq_self]; intro y hy; simpa using hgt y (by simp [hy])

theorem buildIndex_ok : ∀ (n : Nat) (l : List (Int × Ann)) (ix : Index), l.length ≤ n →
    l.Pairwise (fun x y => x.1 ≤ y.1) →
    ∀ f, buildIndex n ix l f = if (l.filter fun x => x.1 == f) = [] then ix f
      else some (runPosting f ((l.filter fun x => x.1 == f).map (·.2))) := by
  intro n
  induction n with
  | zero =>
    intro l ix hn _ f
    have : l = [] := List.eq_nil_of_length_eq_zero (by omega)
    subst this; simp [buildIndex]
  | succ n ih =>
    intro l ix hn hs f
    match l with
    | [] => simp [buildIndex, fromAnnotations]
    | (g, a) :: l =>
      rw [buildIndex, fromAnnotations_eq]
      simp only
      obtain ⟨t1, t2⟩ := takeWhile_filter ((g, a) :: l) g hs (by
        intro x hx
        rcases List.mem_cons.1 hx with rfl | hx
        · exact Int.le_refl _
        · exact (List.pairwise_cons.1 hs).1 x hx)
      rw [t1, t2, ih]
      · by_cases hf : f = g
        · subst hf
          have : ((((f, a) :: l).filter fun x => x.1 != f).filter fun x => x.1 == f) = [] := by
            rw [List.filter_eq_nil_iff]
            intro x hx
            have := (List.mem_filter.1 hx).2
            simpa using this
          rw [if_pos this, if_neg (by simp)]
          simp [Index.set, runPosting]
        · have : ((((g, a) :: l).filter fun x => x.1 != g).filter fun x => x.1 == f) =
              ((g, a) :: l).filter fun x => x.1 == f := by
            rw [List.filter_filter]
            apply List.filter_congr
            intro x _
            by_cases hx : x.1 = f
            · simp [hx, hf]
            · simp [hx]
          rw [this]
          have hset : Index.set ix (runPosting g
              ((((g, a) :: l).filter fun x => x.1 == g).map (·.2))).feature
              (runPosting g ((((g, a) :: l).filter fun x => x.1 == g).map (·.2))) f = ix f := by
            simp [Index.set, runPosting, hf]
          rw [hset]
      · have := List.length_filter_le (fun x : Int × Ann => x.1 != g) l
        simp only [List.length_cons] at hn
        rw [List.filter_cons]
        simp
        omega
      · exact hs.filter _

theorem annLess_feature {x y : Int × Ann} (h : annLess y x = false) : x.1 ≤ y.1 := by
  unfold annLess at h
  simp only [Bool.or_eq_false_iff, decide_eq_false_iff_not] at h
  omega

theorem annLess_ordered {x y : Int × Ann} (h : annLess y x = false) (hf : x.1 = y.1) :
    ordered x.2 y.2 := by
  unfold annLess at h
  simp only [Bool.or_eq_false_iff, Bool.and_eq_false_iff, beq_eq_false_iff_ne, ne_eq,
    decide_eq_false_iff_not, hf, not_true, false_or] at h
  unfold ordered; omega

/-- the annotations of one feature -/
def ofFeature (f : Int) (l : List (Int × Ann)) : List Ann := (l.filter fun x => x.1 == f).map (·.2)

/-- the index of a transaction, feature by feature -/
theorem indexOf_ok {l sorted : List (Int × Ann)} (h : SortedFrom l sorted) (f : Int) :
    (ofFeature f sorted).Perm (ofFeature f l) ∧ (ofFeature f sorted).Pairwise ordered ∧
    indexOf sorted f = if ofFeature f l = [] then none else some (runPosting f (ofFeature f sorted)) := by
  obtain ⟨h1, h2⟩ := h
  have hp : (ofFeature f sorted).Perm (ofFeature f l) := (h1.filter _).map _
  refine ⟨hp, ?_, ?_⟩
  · unfold ofFeature
    rw [List.pairwise_map]
    refine List.Pairwise.imp_of_mem ?_ (h2.filter _)
    intro x y hx hy hxy
    have hx := (List.mem_filter.1 hx).2
    have hy := (List.mem_filter.1 hy).2
    simp only [beq_iff_eq] at hx hy
    exact annLess_ordered hxy (by rw [hx, hy])
  · unfold indexOf
    rw [buildIndex_ok _ _ _ (Nat.le_refl _) (h2.imp annLess_feature)]
    have : (sorted.filter fun x => x.1 == f) = [] ↔ ofFeature f l = [] := by
      rw [← List.map_eq_nil_iff (f := fun x : Int × Ann => x.2)]
      change ofFeature f sorted = [] ↔ _
      constructor
      · intro h; rw [h] at hp; exact hp.nil_eq.symm
      · intro h; rw [h] at hp; exact hp.eq_nil
    by_cases hc : ofFeature f l = []
    · rw [if_pos hc, if_pos (this.2 hc)]; rfl
    · rw [if_neg hc, if_neg (fun h => hc (this.1 h))]; rfl

end Verif.Store
