import Verif.Extsort.Proof

/-!
# C73: sorting and checking files of annotations

Property C73: sorting a file of annotations, however many there are and however few fit into memory, gives a file with the same annotations in
order; if it cannot be done the input is still there; nothing else is touched and nothing is left behind.  The check that follows accepts
the sorted file exactly if the annotations can be those of an index.
-/

namespace Verif.Props
open Verif.Extsort

/-- C73, sorting.  Missing: a failure to write that comes only when the file is closed is not noticed (`C73_full_disk`); a file without
annotations is removed and there is no sorted one (`C73_empty`). -/
theorem C73_sort_partial {E : Env} (hs : Sorts E) (hn : ∀ k n, E.disk k ≠ .unnoticed n) {w : World} {input : Name} (hw : Fresh w input)
    {bs : Bytes} (hin : w.files input = some bs) (hne : records bs ≠ []) :
    match sortAnnotations E w input with
    | (w', none) => (∃ k, E.disk k ≠ .good) ∧ w'.files input = some bs ∧ ∀ n, (∀ k, w.next ≤ k → n ≠ .temp k) → w'.files n = w.files n
    | (w', some out) => (∃ bs', w'.files out = some bs' ∧ (records bs').Perm (records bs) ∧ Ordered (records bs') ∧ bs' = write (records bs')) ∧
        w'.files input = none ∧ (∃ k, out = .temp k ∧ w.next ≤ k) ∧
        (∀ n, n ≠ input → (∀ k, w.next ≤ k → n ≠ .temp k) → w'.files n = w.files n) ∧
        ∀ k, w.next ≤ k → .temp k ≠ out → w'.files (.temp k) = none ∨ w'.files (.temp k) = w.files (.temp k) := by
  have hb : ∀ {w' : World}, Beside w w' → w'.files input = some bs := fun h => (h.2 input hw.older).trans hin
  obtain ⟨r1, r2⟩ := runs_ok (w0 := w) hn hs (records bs) [] [] w [] (queue_start w) (by simp) (records_fits bs)
  have gr : (∀ k, E.disk k = .good) → (runs E (records bs) [] [] w).2.isSome := fun h => runs_good h ..
  rw [sortAnnotations, hin]
  dsimp only
  generalize runs E (records bs) [] [] w = x at *
  obtain ⟨w1, o1⟩ := x
  cases o1 with
  | none =>
    refine ⟨?_, hb r1, r1.2⟩
    apply Classical.byContradiction
    intro h
    have := gr fun k => Classical.byContradiction fun hk => h ⟨k, hk⟩
    cases this
  | some q =>
    obtain ⟨S, hS, hq⟩ := r2 q rfl
    obtain ⟨d1, d2⟩ := drain_ok hn q w1 S hq
    have gd : (∀ k, E.disk k = .good) → (drain E q w1).2.isSome := fun h => drain_good h hn q w1 S hq
    dsimp only
    generalize drain E q w1 = y at *
    obtain ⟨w2, o2⟩ := y
    cases o2 with
    | none =>
      refine ⟨?_, hb d1, d1.2⟩
      apply Classical.byContradiction
      intro h
      have := gd fun k => Classical.byContradiction fun hk => h ⟨k, hk⟩
      cases this
    | some out =>
      dsimp only
      rcases d2 out rfl with ⟨h1, _, _⟩ | ⟨S', h1, h2⟩
      · exfalso
        subst h1
        have := hq.all
        simp only [List.flatMap_nil] at this
        have h3 : S = [] := this.symm.eq_nil
        rw [h3] at hS
        have h4 := hS.symm.eq_nil
        simp at h4
        exact hne h4
      · obtain ⟨l, hl, ho, hf⟩ := h2.sorted out (by simp)
        obtain ⟨k, hk1, hk2, hk3⟩ := h2.made out (by simp)
        have hio : out ≠ input := by rw [hk1]; exact (hw.older k hk2).symm
        have hall := h2.all
        have he : says w2 out = l := by unfold says; rw [hl]; exact records_write hf
        simp only [List.flatMap_cons, List.flatMap_nil, List.append_nil] at hall
        rw [he] at hall
        refine ⟨⟨write l, ?_, ?_, ?_, ?_⟩, set_self .., ⟨k, hk1, hk2⟩, ?_, ?_⟩
        · rw [set_other hio]; exact hl
        · rw [records_write hf]
          exact hall.trans (h1.trans (by simpa using hS))
        · rw [records_write hf]; exact ho
        · rw [records_write hf]
        · intro n hn1 hn2
          rw [set_other hn1]
          exact d1.2 n hn2
        · intro j hj1 hj2
          have hji : Name.temp j ≠ input := (hw.older j hj1).symm
          rw [set_other hji]
          by_cases hlt : j < w2.next
          · exact .inl (h2.gone j hj1 hlt (by simpa using hj2))
          · exact .inr (h2.later j (Nat.le_of_not_lt hlt))

/-- With a disk that has room sorting succeeds. -/
theorem C73_succeeds {E : Env} (hs : Sorts E) (hg : ∀ k, E.disk k = .good) {w : World} {input : Name} (hw : Fresh w input)
    (hin : (w.files input).isSome) : (sortAnnotations E w input).2.isSome := by
  obtain ⟨bs, hin⟩ := Option.isSome_iff_exists.mp hin
  have hn : ∀ k n, E.disk k ≠ .unnoticed n := fun k n e => by rw [hg] at e; cases e
  have gr := runs_good hg (records bs) [] [] w
  obtain ⟨_, r2⟩ := runs_ok (w0 := w) hn hs (records bs) [] [] w [] (queue_start w) (by simp) (records_fits bs)
  rw [sortAnnotations, hin]
  dsimp only
  generalize runs E (records bs) [] [] w = x at *
  obtain ⟨w1, o1⟩ := x
  cases o1 with
  | none => cases gr
  | some q =>
    obtain ⟨S, _, hq⟩ := r2 q rfl
    have gd := drain_good hg hn q w1 S hq
    dsimp only
    generalize drain E q w1 = y at *
    obtain ⟨w2, o2⟩ := y
    cases o2 with
    | none => cases gd
    | some out => rfl

/-- C73, checking: a file is accepted exactly if it is there, no annotation ends before it starts, and those of each feature, in the order of
features, go forward with both their starts and their ends. -/
theorem C73_check (w : World) (n : Name) : checkAnnotations w n = true ↔ ∃ bs, w.files n = some bs ∧
    (∀ a ∈ records bs, a.p ≤ a.q) ∧
    (records bs).Pairwise fun a b => a.feature < b.feature ∨ (a.feature = b.feature ∧ a.p < b.p ∧ a.q < b.q) := by
  unfold checkAnnotations
  cases h : w.files n with
  | none => simp
  | some bs =>
    simp only [Option.some.injEq, exists_eq_left']
    exact accepts_iff (records bs)

/-- C73, together: what was sorted is accepted exactly if no annotation ends before it starts and no two of a feature are nested, in
whatever order they were in the file.  Missing: as for `C73_sort_partial`. -/
theorem C73_valid_partial {E : Env} (hs : Sorts E) (hn : ∀ k n, E.disk k ≠ .unnoticed n) {w w' : World} {input out : Name} (hw : Fresh w input)
    {bs : Bytes} (hin : w.files input = some bs) (hne : records bs ≠ []) (h : sortAnnotations E w input = (w', some out)) :
    checkAnnotations w' out = true ↔ Legal (records bs) := by
  have := C73_sort_partial hs hn hw hin hne
  rw [h] at this
  obtain ⟨⟨bs', h1, h2, h3, _⟩, _⟩ := this
  rw [← legal_perm h2, ← accepts_sorted h3]
  unfold checkAnnotations
  rw [h1]
  rfl

/-! A case: three annotations, of which two fit into memory. -/

/-- Insertion by `annotation_cmp`. -/
def insertAnn (a : Ann) : List Ann → List Ann
  | [] => [a]
  | b :: l => if cmp b a then b :: insertAnn a l else a :: b :: l

def twoFit (disk : Nat → Out) : Env where
  lots := 2
  sort l := l.foldr insertAnn []
  disk := disk

def threeAnns : List Ann := [⟨7, 4, 6, 1⟩, ⟨7, 1, 5, 2⟩, ⟨3, 0, 9, 3⟩]

/-- The input is the file `a`. -/
def aFile (bs : Bytes) : World := ⟨fun n => if n = .path [0x61] then some bs else none, 5⟩

theorem insertAnn_perm (a : Ann) (l : List Ann) : (insertAnn a l).Perm (a :: l) := by
  induction l with
  | nil => exact .refl _
  | cons b l ih =>
    rw [insertAnn]
    split
    · exact (ih.cons b).trans (.swap a b l)
    · exact .refl _

theorem insertAnn_ordered (a : Ann) (l : List Ann) (h : Ordered l) : Ordered (insertAnn a l) := by
  induction l with
  | nil => exact List.pairwise_singleton _ _
  | cons b l ih =>
    obtain ⟨h1, h2⟩ := List.pairwise_cons.mp h
    rw [insertAnn]
    split
    · rename_i hc
      refine List.pairwise_cons.mpr ⟨fun c hcm => ?_, ih h2⟩
      rcases List.mem_cons.mp ((insertAnn_perm a l).mem_iff.mp hcm) with e | e
      · rw [e]; exact cmp_before hc
      · exact h1 c e
    · rename_i hc
      refine List.pairwise_cons.mpr ⟨fun c hcm => ?_, h⟩
      rcases List.mem_cons.mp hcm with e | e
      · rw [e]; exact not_cmp_before hc
      · exact before_trans (not_cmp_before hc) (h1 c e)

theorem twoFit_sorts (disk : Nat → Out) : Sorts (twoFit disk) := by
  intro l
  show (l.foldr insertAnn []).Perm l ∧ Ordered (l.foldr insertAnn [])
  induction l with
  | nil => exact ⟨.refl _, List.Pairwise.nil⟩
  | cons a l ih => exact ⟨(insertAnn_perm a _).trans (ih.1.cons a), insertAnn_ordered a _ ih.2⟩

theorem aFile_fresh (bs : Bytes) : Fresh (aFile bs) (.path [0x61]) :=
  ⟨by simp [aFile], fun k _ e => by cases e⟩

/-- The hypotheses are met, the annotations are sorted through two files, and they are legal. -/
example : (sortAnnotations (twoFit fun _ => .good) (aFile (write threeAnns)) (.path [0x61])).2 = some (.temp 7) ∧
    checkAnnotations (sortAnnotations (twoFit fun _ => .good) (aFile (write threeAnns)) (.path [0x61])).1 (.temp 7) = true ∧
    records (write threeAnns) = threeAnns := by
  refine ⟨?_, ?_, ?_⟩ <;> decide +kernel

example : Legal (records (write threeAnns)) := by
  have h := C73_succeeds (twoFit_sorts fun _ => .good) (fun _ => rfl) (aFile_fresh (write threeAnns)) (by decide +kernel)
  have e : (sortAnnotations (twoFit fun _ => .good) (aFile (write threeAnns)) (.path [0x61])).2 = some (.temp 7) := by decide +kernel
  exact (C73_valid_partial (twoFit_sorts fun _ => .good) (fun _ _ e => by cases e) (aFile_fresh (write threeAnns)) (by decide +kernel)
    (by decide +kernel) (Prod.ext rfl e)).mp (by decide +kernel)

/-- Not C73: a file without annotations is removed, and the name returned for the sorted one is empty, which no check accepts. -/
theorem C73_empty (E : Env) {w : World} {input : Name} (hw : Fresh w input) {bs : Bytes} (hin : w.files input = some bs)
    (he : records bs = []) : (sortAnnotations E w input).2 = some (.path []) ∧ (sortAnnotations E w input).1.files input = none ∧
    checkAnnotations (sortAnnotations E w input).1 (.path []) = false := by
  have e : sortAnnotations E w input = (w.set input none, some (.path [])) := by
    rw [sortAnnotations, hin]
    dsimp only
    rw [he]
    simp [runs, drain]
  rw [e]
  refine ⟨rfl, set_self .., ?_⟩
  unfold checkAnnotations
  have : (w.set input none).files (.path []) = none := by
    unfold World.set
    dsimp only
    split
    · rfl
    · exact hw.noname
  rw [this]

example : records [1, 2, 3] = [] := by decide +kernel

/-- Not C73: the disk has room for one annotation of the second file, and this shows only when the file is closed: the input is removed
and one annotation is lost, with success reported. -/
theorem C73_full_disk : ∃ w' bs', sortAnnotations (twoFit fun k => if k = 7 then .unnoticed 64 else .good) (aFile (write threeAnns)) (.path [0x61])
      = (w', some (.temp 7)) ∧ w'.files (.temp 7) = some bs' ∧ (records bs').length = 2 ∧ w'.files (.path [0x61]) = none := by
  refine ⟨_, (sortAnnotations (twoFit fun k => if k = 7 then .unnoticed 64 else .good) (aFile (write threeAnns)) (.path [0x61])).1.files
    (.temp 7) |>.getD [], Prod.ext rfl ?_, ?_, ?_, ?_⟩ <;> decide +kernel

end Verif.Props
