import Verif.Static.Build
import Verif.Static.Lookup
import Verif.Props.Store

/-!
# C42: the index of a static warren answers for its whole history

What should be answered is in `Static/Spec.lean`, stated on the history of transactions alone.
-/

namespace Verif.Props
open Verif.Hopper Verif.Store Verif.Gcl Verif.Static

/-- The index in two files answers what it should after a history: the four operations of the list of
each feature are about what is visible, the count is how many there are, and the size of the vocabulary
is the number of features committed. -/
structure AnswersFor (pc fc : Codec) (d : Files) (ts : List Static.Txn) : Prop where
  lists : ∀ f, Implements (Static.hopper pc fc d f) (Visible ts f)
  counts : ∀ f, ∃ l : List Ann, l.Nodup ∧ (∀ a, a ∈ l ↔ Visible ts f a) ∧ Static.count d f = some (l.length : Int)
  vocabulary : ∃ fs : List Int, fs.Nodup ∧ (∀ f, f ∈ fs ↔ ∃ a, Given ts f a) ∧ vocab d = some fs.length

theorem after_answers {N K : Nat} {pc fc : Codec} (hc : Codecs N pc fc) {ts : List Static.Txn} {d : Files}
    {Rs : List Posting} (h : After K pc fc ts d Rs) (hK : K ≤ N) (hl : d.pst.length ≤ 4611686018427387904) :
    AnswersFor pc fc d ts := by
  refine ⟨fun f => Implements.congr (hopper_ok hc h.holds hK hl f) (h.visible f), fun f => ?_, ?_⟩
  · refine ⟨annsAt Rs f, ?_, h.visible f, count_ok hc h.holds hK hl f⟩
    refine (annsAt_listing h.holds.sorted h.holds.good f).sorted.imp ?_
    rintro a b ⟨h1, _⟩ rfl
    omega
  · refine ⟨Rs.map (·.feature), ?_, ?_, by rw [vocab_ok hc h.holds hK hl, List.length_map]⟩
    · show List.Pairwise _ _
      rw [List.pairwise_map]
      refine h.holds.sorted.imp ?_
      intro P Q h1 h2
      omega
    · intro f
      rw [List.mem_map]
      constructor
      · rintro ⟨P, hP, rfl⟩
        obtain ⟨a, ha⟩ := List.exists_mem_of_ne_nil _ (h.holds.good P hP).nonempty
        have : a ∈ annsAt Rs P.feature := List.mem_flatMap.2 ⟨P, List.mem_filter.2 ⟨hP, by simp⟩, ha⟩
        obtain ⟨⟨pre, t, post, rfl, g, _⟩, _⟩ := (h.visible _ _).1 this
        obtain ⟨u, hu, g⟩ := g
        rw [List.mem_singleton] at hu
        exact ⟨a, u, by rw [hu]; simp, g⟩
      · rintro ⟨a, ha⟩
        obtain ⟨Hs, h1, h2, h3, _⟩ := h.hist f
        obtain ⟨L, hL, ha⟩ := (h3 a).2 ha
        obtain ⟨m, hm, _⟩ := unionL_cover h1 hL ha
        obtain ⟨P, hP, _⟩ := List.mem_flatMap.1 ((h2 m).2 hm)
        obtain ⟨hP, hf⟩ := List.mem_filter.1 hP
        exact ⟨P, hP, by simpa using hf⟩

/-- **C42**: any number of transactions on an empty static warren, each with any number of annotations in
any order and each committed or aborted, all succeed, and the files they leave answer for the history.
This is so for every way of sorting equal elements, every limit on how many annotations are kept in
memory, and every pair of compressors that gives back what it was given.
Partial: of the annotations of one feature in one transaction none may contain another (see
`C42_nested_depends_on_limit` and `C42_twice_in_one`), and the files must stay below 2^62 bytes. -/
theorem C42_history_partial {N : Nat} {pc fc : Codec} (hc : Codecs N pc fc)
    {sort : List (Int × Ann) → List (Int × Ann)} (hs : Sorts annCmp sort) (limit : Nat) (ts : List Static.Txn)
    (hf : ∀ t ∈ ts, t.commit = true → Fair t.anns) (hN : committed ts ≤ N) :
    ∃ d, transactAll pc fc sort limit {} ts = some d ∧ (d.pst.length ≤ 2 ^ 62 → AnswersFor pc fc d ts) := by
  obtain ⟨d, Rs, h1, h2⟩ := transactAll_ok hc hs limit ts (after_nil pc fc) hf (by omega)
  exact ⟨d, h1, fun hl => after_answers hc h2 (by omega) hl⟩

/-- **C42**, when the warren was made by the builder from texts and annotations: the index answers for
the tokens of the texts, the annotations given to the builder, and then the transactions.
Partial: as `C42_history_partial`, and the builder must be given the annotations of a feature in
increasing order, and some token if it is given any annotation (see `C42_builder_drops`,
`C42_builder_order`). -/
theorem C42_built_partial {N : Nat} {pc fc : Codec} (hc : Codecs N pc fc)
    {tokSort : List (Int × Int) → List (Int × Int)} (hts : Sorts tokCmp tokSort)
    {annSort : List (Int × Ann) → List (Int × Ann)} (has : Sorts annCmp annSort)
    {sort : List (Int × Ann) → List (Int × Ann)} (hs : Sorts annCmp sort)
    (tokLimit annLimit limit : Nat) (texts : List (List (Int × Int))) (anns : List (Int × Ann))
    (hb : FairBuild texts anns) (ts : List Static.Txn)
    (hf : ∀ t ∈ ts, t.commit = true → Fair t.anns) (hN : committed (built texts anns :: ts) ≤ N) :
    ∃ d0 d, build pc fc tokSort annSort tokLimit annLimit texts anns = some d0 ∧
      transactAll pc fc sort limit d0 ts = some d ∧
      (d.pst.length ≤ 2 ^ 62 → AnswersFor pc fc d (built texts anns :: ts)) := by
  have e : committed (built texts anns :: ts) = (built texts anns).anns.length + committed ts := by
    simp [committed, built]
  rw [e] at hN
  obtain ⟨d0, R0, b1, b2⟩ := build_ok hc hts has tokLimit annLimit hb (by omega)
  obtain ⟨d, Rs, h1, h2⟩ := transactAll_ok hc hs limit ts b2 hf hN
  exact ⟨d0, d, b1, h1, fun hl => after_answers hc h2 hN hl⟩

/-! ### Compressors -/

/-- The compressors a static warren uses: `post` for addresses, and for values any that gives back what
it was given, such as `null` or (assumed) `zlib`. -/
theorem static_codecs {fc : Codec} (hf : Faithful fc) : Codecs 1000000000000000 postCodec fc :=
  ⟨by decide, fun _ hl h0 hs => post_restores hl h0 hs, fun _ hl _ => faithful_restores hf hl⟩

theorem plain_codecs {pc fc : Codec} (hp : Faithful pc) (hf : Faithful fc) : Codecs 1000000000000000 pc fc :=
  ⟨by decide, fun _ hl _ _ => faithful_restores hp hl, fun _ hl _ => faithful_restores hf hl⟩

/-! ### Examples -/

/-- Insertion into a sorted list. -/
def insertBy {α : Type} (cmp : α → α → Bool) (x : α) : List α → List α
  | [] => [x]
  | y :: l => if cmp y x then y :: insertBy cmp x l else x :: y :: l

/-- A way of sorting. -/
def sortBy {α : Type} (cmp : α → α → Bool) (l : List α) : List α := l.foldr (insertBy cmp) []

theorem insertBy_perm {α : Type} (cmp : α → α → Bool) (x : α) : ∀ l, (insertBy cmp x l).Perm (x :: l)
  | [] => List.Perm.refl _
  | y :: l => by
    rw [insertBy]
    split
    · exact ((insertBy_perm cmp x l).cons y).trans (List.Perm.swap x y l)
    · exact List.Perm.refl _

theorem sortBy_sorts {α : Type} (cmp : α → α → Bool) (asym : ∀ x y, cmp x y = true → cmp y x = false)
    (trans : ∀ x y z, cmp y x = false → cmp z y = false → cmp z x = false) : Sorts cmp (sortBy cmp) := by
  intro l
  induction l with
  | nil => exact ⟨List.Perm.refl _, List.Pairwise.nil⟩
  | cons x l ih =>
    refine ⟨(insertBy_perm cmp x _).trans (ih.1.cons x), ?_⟩
    show (insertBy cmp x (sortBy cmp l)).Pairwise _
    generalize sortBy cmp l = s at ih
    have hs := ih.2
    clear ih
    induction s with
    | nil => simp [insertBy]
    | cons y s ih =>
      obtain ⟨s1, s2⟩ := List.pairwise_cons.1 hs
      rw [insertBy]
      split
      · rename_i hyx
        refine List.pairwise_cons.2 ⟨?_, ih s2⟩
        intro z hz
        rcases List.mem_cons.1 ((insertBy_perm cmp x s).subset hz) with rfl | hz
        · exact asym _ _ hyx
        · exact s1 z hz
      · rename_i hyx
        have hyx : cmp y x = false := by simpa using hyx
        refine List.pairwise_cons.2 ⟨?_, hs⟩
        intro z hz
        rcases List.mem_cons.1 hz with rfl | hz
        · exact hyx
        · exact trans _ _ _ hyx (s1 z hz)

theorem annSort_sorts : Sorts annCmp (sortBy annCmp) := by
  refine sortBy_sorts _ ?_ ?_
  · intro x y; simp only [annCmp, Bool.or_eq_true, Bool.or_eq_false_iff, Bool.and_eq_true, Bool.and_eq_false_iff,
      decide_eq_true_eq, decide_eq_false_iff_not, beq_iff_eq, beq_eq_false_iff_ne]; omega
  · intro x y z; simp only [annCmp, Bool.or_eq_false_iff, Bool.and_eq_false_iff,
      decide_eq_false_iff_not, beq_eq_false_iff_ne]; omega

theorem tokSort_sorts : Sorts tokCmp (sortBy tokCmp) := by
  refine sortBy_sorts _ ?_ ?_
  · intro x y; simp only [tokCmp, Bool.or_eq_true, Bool.or_eq_false_iff, Bool.and_eq_true, Bool.and_eq_false_iff,
      decide_eq_true_eq, decide_eq_false_iff_not, beq_iff_eq, beq_eq_false_iff_ne]; omega
  · intro x y z; simp only [tokCmp, Bool.or_eq_false_iff, Bool.and_eq_false_iff,
      decide_eq_false_iff_not, beq_eq_false_iff_ne]; omega

/-- Three transactions, one of them aborted: the last gives `[2,3]` of feature 5 a new value, and an
interval that lies in one of the first. -/
def exampleHistory : List Static.Txn :=
  [{ anns := [(7, ⟨20, 30, 0⟩), (5, ⟨2, 3, 1⟩), (7, ⟨0, 9, 4⟩), (5, ⟨4, 2, 0⟩)], commit := true },
   { anns := [(7, ⟨1, 2, 0⟩)], commit := false },
   { anns := [(5, ⟨2, 3, 8⟩), (7, ⟨22, 23, 0⟩), (6, ⟨1, 1, 0⟩)], commit := true }]

theorem exampleHistory_fair : ∀ t ∈ exampleHistory, t.commit = true → Fair t.anns := by
  intro t ht _
  refine ⟨?_, ?_, ?_, ?_⟩
  · revert t; decide
  · revert t; decide
  · revert t; decide
  · have : ∀ t ∈ exampleHistory, t.anns.Pairwise fun x y => ¬ (x.1 = y.1 ∧ Kept x.2 ∧ Kept y.2 ∧
        (inside x.2 y.2 ∨ inside y.2 x.2)) := by unfold inside; decide
    refine (this t ht).imp ?_
    intro x y h e k1 k2
    exact ⟨fun i => h ⟨e, k1, k2, Or.inl i⟩, fun i => h ⟨e, k1, k2, Or.inr i⟩⟩

example : ∃ d, transactAll postCodec nullCodec (sortBy annCmp) 2 {} exampleHistory = some d ∧
    (d.pst.length ≤ 2 ^ 62 → AnswersFor postCodec nullCodec d exampleHistory) :=
  C42_history_partial (static_codecs null_faithful) annSort_sorts 2 exampleHistory exampleHistory_fair (by decide)

example : Visible exampleHistory 5 ⟨2, 3, 8⟩ ∧ ¬ Visible exampleHistory 5 ⟨2, 3, 1⟩ := by
  have g : Given [exampleHistory[2]] 5 ⟨2, 3, 8⟩ := ⟨_, List.mem_singleton_self _, rfl, by decide, by decide⟩
  refine ⟨⟨⟨exampleHistory.take 2, _, [], rfl, g, by simp [Given]⟩, ?_⟩, ?_⟩
  · rintro b ⟨t, ht, hc, hb, hk⟩ hin
    have : ∀ t ∈ exampleHistory, ∀ x ∈ t.anns, x.1 = 5 → Kept x.2 → inside x.2 ⟨2, 3, 8⟩ →
        x.2.p = 2 ∧ x.2.q = 3 := by unfold inside; decide
    exact this t ht _ hb rfl hk hin
  · rintro ⟨⟨pre, t, post, e, g1, h⟩, _⟩
    match pre, e with
    | [], e =>
      cases e
      exact h ⟨⟨2, 3, 8⟩, ⟨_, List.mem_cons_of_mem _ (List.mem_cons_self ..), rfl, by decide, by decide⟩, rfl, rfl⟩
    | [_], e =>
      cases e
      obtain ⟨t, ht, hc, _⟩ := g1
      rw [List.mem_singleton] at ht; subst ht; cases hc
    | [_, _], e =>
      cases e
      obtain ⟨t, ht, hc, hm, _⟩ := g1
      rw [List.mem_singleton] at ht; subst ht; revert hm; decide
    | [_, _, _], e => cases e
    | _ :: _ :: _ :: _ :: _, e => cases e

/-- Two texts, and a tag around each. -/
theorem exampleBuild_fair : FairBuild [[(100, 0), (101, 1), (100, 2)], [(101, 3), (nullFeature, 4)]]
    [(50, ⟨0, 2, 0⟩), (51, ⟨0, 4, 0⟩), (50, ⟨3, 4, 0⟩)] := by
  refine ⟨?_, ?_, ?_, ?_, ?_, ?_, ?_, ?_⟩ <;> decide

example : ∃ d0 d, build postCodec nullCodec (sortBy tokCmp) (sortBy annCmp) 2 1
      [[(100, 0), (101, 1), (100, 2)], [(101, 3), (nullFeature, 4)]]
      [(50, ⟨0, 2, 0⟩), (51, ⟨0, 4, 0⟩), (50, ⟨3, 4, 0⟩)] = some d0 ∧
    transactAll postCodec nullCodec (sortBy annCmp) 2 d0 exampleHistory = some d ∧
    (d.pst.length ≤ 2 ^ 62 → AnswersFor postCodec nullCodec d
      (built [[(100, 0), (101, 1), (100, 2)], [(101, 3), (nullFeature, 4)]]
        [(50, ⟨0, 2, 0⟩), (51, ⟨0, 4, 0⟩), (50, ⟨3, 4, 0⟩)] :: exampleHistory)) :=
  C42_built_partial (static_codecs null_faithful) tokSort_sorts annSort_sorts annSort_sorts 2 1 2 _ _
    exampleBuild_fair _ exampleHistory_fair (by decide)

/-! ### What is missing -/

/-- The first interval of a feature from the beginning on, and how many it has. -/
def firstAndCount (d : Option Files) (f : Int) : Option (Ann × Int) :=
  match d with
  | none => none
  | some d =>
    match ((Static.hopper postCodec nullCodec d f).tau 0).run (Static.hopper postCodec nullCodec d f).init,
      Static.count d f with
    | some (a, _), some n => some (a, n)
    | _, _ => none

/-- One transaction on an empty warren. -/
def once (limit : Nat) (anns : List (Int × Ann)) : Option Files :=
  transactAll postCodec nullCodec (sortBy annCmp) limit {} [{ anns := anns, commit := true }]

/-- When one transaction gives a feature an interval and another one inside of it, which of them can be
found afterwards depends on how many annotations are kept in memory: the outer one if both are, although
the inner one is what should be found; the inner one if not. -/
theorem C42_nested_depends_on_limit :
    firstAndCount (once 10 [(5, ⟨1, 10, 0⟩), (5, ⟨2, 3, 0⟩)]) 5 = some (⟨1, 10, 0⟩, 1) ∧
    firstAndCount (once 1 [(5, ⟨1, 10, 0⟩), (5, ⟨2, 3, 0⟩)]) 5 = some (⟨1, 10, 0⟩, 1) ∧
    firstAndCount (once 0 [(5, ⟨1, 10, 0⟩), (5, ⟨2, 3, 0⟩)]) 5 = some (⟨2, 3, 0⟩, 1) ∧
    ¬ Visible [{ anns := [(5, ⟨1, 10, 0⟩), (5, ⟨2, 3, 0⟩)], commit := true }] 5 ⟨1, 10, 0⟩ := by
  refine ⟨by decide +kernel, by decide +kernel, by decide +kernel, ?_⟩
  rintro ⟨_, h⟩
  have := h ⟨2, 3, 0⟩ ⟨_, List.mem_singleton_self _, rfl, by decide, by decide⟩ (by unfold inside; decide)
  revert this
  decide

/-- The same interval given twice in one transaction is kept twice, and counted twice, if both are kept
in memory, and once otherwise. -/
theorem C42_twice_in_one :
    firstAndCount (once 10 [(5, ⟨1, 10, 1⟩), (5, ⟨1, 10, 2⟩)]) 5 = some (⟨1, 10, 1⟩, 2) ∧
    firstAndCount (once 0 [(5, ⟨1, 10, 1⟩), (5, ⟨1, 10, 2⟩)]) 5 = some (⟨1, 10, 2⟩, 1) :=
  ⟨by decide +kernel, by decide +kernel⟩

/-- A builder that is given no text with a token loses the annotations it is given. -/
theorem C42_builder_drops :
    firstAndCount (build postCodec nullCodec (sortBy tokCmp) (sortBy annCmp) 10 10 [] [(5, ⟨1, 10, 0⟩)]) 5 =
      some (⟨maxfinity, maxfinity, 0⟩, 0) := by decide +kernel

/-- A builder that is given the annotations of a feature in decreasing order sorts them if both are kept
in memory, and fails otherwise. -/
theorem C42_builder_order :
    firstAndCount (build postCodec nullCodec (sortBy tokCmp) (sortBy annCmp) 10 10 [[(1, 0)]]
      [(5, ⟨4, 5, 0⟩), (5, ⟨2, 3, 0⟩)]) 5 = some (⟨2, 3, 0⟩, 2) ∧
    build postCodec nullCodec (sortBy tokCmp) (sortBy annCmp) 10 0 [[(1, 0)]]
      [(5, ⟨4, 5, 0⟩), (5, ⟨2, 3, 0⟩)] = none := ⟨by decide +kernel, by decide +kernel⟩

end Verif.Props
