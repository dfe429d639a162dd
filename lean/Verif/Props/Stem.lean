import Verif.Stem.Shape
/-
  C56: the Porter stemmer answers a function of the word alone, the one of the paper.

  The specification is Verif/Stem/Spec.lean: `stem` is Porter's algorithm on words, and `answer`
  says which words are stemmed at all.  The model (Verif/Stem/Model.lean) is the code's buffer
  with its indices; `below` is the byte just before the buffer, which the code reads for some
  words: `some c` is what a build without checks finds there, and `none` makes the read an error.
-/
namespace Verif.Props
open Verif.Stem

/-- the words are stemmed one after another; before each, the byte before the buffer may have changed -/
def stemAll : List (Option UInt8 × Word) → Code.Stemmer → Option (List (Word × Bool))
  | [], _ => some []
  | x :: l, s =>
    match Code.stemCode x.1 x.2 s with
    | none => none
    | some (r, did, s') => (stemAll l s').map ((r, did) :: ·)

/-- The words after which the code looks at the byte before its buffer: one letter is left after
the first steps, or `ion` before the fourth. -/
def Underflows (word : Word) : Prop :=
  Stemmable word ∧ ((step1b (step1a (word.map small))).length = 1 ∨ early (word.map small) = w!"ion")

instance (word : Word) : Decidable (Underflows word) := by unfold Underflows; infer_instance

theorem step1b_ne {w : Word} (h : 3 ≤ w.length) : 0 < (step1b (step1a w)).length := by
  have hs := (step1a_shorter h).trans (step1b_shorter _)
  cases hx : step1b (step1a w) with
  | cons a l => simp
  | nil =>
    have := hs.head
    rw [hx] at this
    cases w with
    | nil => simp at h
    | cons a l => simp at this

theorem underflows_iff {word : Word} (h : Stemmable word) : Underflows word ↔ ¬Safe (word.map small) := by
  have hl : (word.map small).length = word.length := List.length_map ..
  have hp := step1b_ne (w := word.map small) (by rw [hl]; exact h.1)
  unfold Underflows Safe
  constructor
  · rintro ⟨-, h1 | h1⟩ (h2 | h2)
    · have := h.1; omega
    · omega
    · have := h.1; omega
    · exact h2.2 h1
  · intro hn
    refine ⟨h, ?_⟩
    by_cases he : early (word.map small) = w!"ion"
    · exact Or.inr he
    · left
      have : ¬2 ≤ (step1b (step1a (word.map small))).length := fun h2 => hn (Or.inr ⟨h2, he⟩)
      omega

/-- C56, for words without NUL bytes, with whatever byte lies before the buffer: any sequence of
words is answered word by word with `answer`, whatever the stemmer was used for before, so the
answer is a function of the word; no access is outside the buffer and the byte before it. -/
theorem C56_stem_partial (l : List (UInt8 × Word)) (s : Code.Stemmer) (hs : Code.fresh s)
    (hz : ∀ x ∈ l, ∀ c ∈ x.2, c ≠ 0) :
    stemAll (l.map fun x => (some x.1, x.2)) s = some (l.map fun x => answer x.2) := by
  induction l generalizing s with
  | nil => rfl
  | cons x l ih =>
    obtain ⟨s', e, h'⟩ := stemCode_eq (below := some x.1) (word := x.2) (x := s) hs (hz x (List.mem_cons_self ..)) (Or.inl rfl)
    rw [List.map_cons, stemAll]
    simp only [e]
    rw [ih s' h' fun y hy => hz y (List.mem_cons_of_mem _ hy)]
    rfl

/-- Exactly the words of `Underflows` make the code look before its buffer; every other word is
answered from the buffer alone. -/
theorem C56_bounds (l : List Word) (s : Code.Stemmer) (hs : Code.fresh s) (hz : ∀ w ∈ l, ∀ c ∈ w, c ≠ 0) :
    stemAll (l.map fun w => (none, w)) s = if ∃ w ∈ l, Underflows w then none else some (l.map answer) := by
  induction l generalizing s with
  | nil => simp [stemAll]
  | cons w l ih =>
    rw [List.map_cons, stemAll]
    by_cases hu : Underflows w
    · have := stemCode_none (x := s) hs hu.1 ((underflows_iff hu.1).1 hu)
      simp only [this]
      rw [if_pos ⟨w, List.mem_cons_self .., hu⟩]
    · obtain ⟨s', e, h'⟩ := stemCode_eq (below := none) (word := w) (x := s) hs (hz w (List.mem_cons_self ..))
        (Or.inr fun hst => Classical.byContradiction fun hn => hu ((underflows_iff hst).2 hn))
      simp only [e]
      rw [ih s' h' fun y hy => hz y (List.mem_cons_of_mem _ hy)]
      by_cases hl : ∃ w ∈ l, Underflows w
      · obtain ⟨v, hv, hvu⟩ := hl
        rw [if_pos ⟨v, hv, hvu⟩, if_pos ⟨v, List.mem_cons_of_mem _ hv, hvu⟩]
        rfl
      · rw [if_neg hl, if_neg]
        · rfl
        · rintro ⟨v, hv, hvu⟩
          rcases List.mem_cons.1 hv with rfl | hv
          · exact hu hvu
          · exact hl ⟨v, hv, hvu⟩

/-- There are such words. -/
theorem C56_underflow :
    Underflows w!"ied" ∧ Underflows w!"aed" ∧ Underflows w!"oing" ∧ Underflows w!"Ion" ∧ Underflows w!"ions" ∧
    ¬Underflows w!"skies" ∧ ¬Underflows w!"lion" ∧
    ∀ s, Code.fresh s → Code.stemCode none w!"aed" s = none := by
  refine ⟨?_, ?_, ?_, ?_, ?_, ?_, ?_, fun s hs => ?_⟩
  · decide +kernel
  · decide +kernel
  · decide +kernel
  · decide +kernel
  · decide +kernel
  · decide +kernel
  · decide +kernel
  · have : Underflows w!"aed" := by decide +kernel
    exact stemCode_none hs this.1 ((underflows_iff this.1).1 this)

/-- A stem is the word's first letter and then small letters, and is no longer than the word. -/
theorem C56_shape {word : Word} (h : Stemmable word) : ∃ t, answer word = (w!"porter:" ++ t, true) ∧
    1 ≤ t.length ∧ t.length ≤ word.length ∧ t.head? = word.head?.map small ∧ ∀ c ∈ t, isLower c = true := by
  have hs := stem_shorter (word.map small)
  refine ⟨stem (word.map small), by unfold answer; rw [if_pos h], ?_, by simpa using hs.length, ?_, ?_⟩
  · have := hs.head
    cases hx : stem (word.map small) with
    | cons a l => simp
    | nil =>
      rw [hx] at this
      cases hw : word with
      | nil => have := h.1; rw [hw] at this; simp at this
      | cons a l => rw [hw] at this; simp at this
  · rw [hs.head, List.head?_map]
  · intro c hc
    rcases hs.letters c hc with h1 | h1
    · rw [List.mem_map] at h1
      obtain ⟨d, hd, rfl⟩ := h1
      have := h.2.2 d hd
      unfold small
      by_cases hu : isUpper d = true
      · rw [if_pos hu]
        unfold isUpper at hu
        simp only [Bool.and_eq_true, decide_eq_true_eq] at hu
        unfold isLower
        simp only [UInt8.toNat_add, Bool.and_eq_true, decide_eq_true_eq]
        have : (32 : UInt8).toNat = 32 := rfl
        omega
      · rw [if_neg hu]
        exact this.resolve_left hu
    · exact h1

/-- The case of the letters does not matter. -/
theorem C56_case {a b : Word} (ha : Stemmable a) (hb : Stemmable b) (h : a.map small = b.map small) : answer a = answer b := by
  unfold answer
  rw [if_pos ha, if_pos hb, h]

/-- Words with other characters, and very short and very long ones, are left alone. -/
theorem C56_others {word : Word} (h : ¬Stemmable word) : answer word = (word, false) := by
  unfold answer
  rw [if_neg h]

/-- A word with a NUL byte is answered with letters of an earlier word: the same word, after two
different histories, gets two answers, and both differ from `answer`. -/
theorem C56_nul :
    let word : Word := w!"ab" ++ 0 :: w!"xyz"
    let new : Code.Stemmer := ⟨List.replicate 33 0, 0⟩
    Code.fresh new ∧
    stemAll [(some 0, w!"concert"), (some 0, word)] new = some [(w!"porter:concert", true), (w!"porter:abncer", true)] ∧
    stemAll [(some 0, w!"tropical"), (some 0, word)] new = some [(w!"porter:tropic", true), (w!"porter:abop", true)] ∧
    answer word = (word, false) := by
  refine ⟨?_, ?_, ?_, ?_⟩
  · unfold Code.fresh; decide
  all_goals decide +kernel

/-! ### examples -/

example : answer w!"Relational" = (w!"porter:relat", true) := by decide +kernel
example : answer w!"generalizations" = (w!"porter:gener", true) := by decide +kernel
example : answer w!"hopping" = (w!"porter:hop", true) := by decide +kernel
example : answer w!"filing" = (w!"porter:file", true) := by decide +kernel
example : answer w!"controll" = (w!"porter:control", true) := by decide +kernel
example : answer w!"it's" = (w!"it's", false) := by decide +kernel
example : answer w!"is" = (w!"is", false) := by decide +kernel
/-- the hypotheses of `C56_stem_partial`, with a buffer full of junk -/
example : stemAll [(some 115, w!"ION"), (some 7, w!"adoption"), (some 0, w!"x1y"), (some 0, w!"ied")] ⟨List.replicate 33 200, -5⟩ =
    some [(w!"porter:ion", true), (w!"porter:adopt", true), (w!"x1y", false), (w!"porter:i", true)] := by
  rw [show [(some 115, w!"ION"), (some 7, w!"adoption"), (some 0, w!"x1y"), (some 0, w!"ied")] =
      [((115 : UInt8), w!"ION"), (7, w!"adoption"), (0, w!"x1y"), (0, w!"ied")].map (fun x => (some x.1, x.2)) from rfl,
    C56_stem_partial _ _ (by unfold Code.fresh; decide) (by decide)]
  decide +kernel
example : Stemmable w!"Cottontail" := by decide

end Verif.Props
