import Verif.Stem.Steps
/-
  The shape of a stem, and the copying of a word into the buffer.
-/
namespace Verif.Stem

/-! ### the shape -/

/-- no longer, with the same first letter, and with no letters but those of the word and small letters -/
structure Shorter (w w' : Word) : Prop where
  length : w'.length ≤ w.length
  head : w'.head? = w.head?
  letters : ∀ c ∈ w', c ∈ w ∨ isLower c = true

theorem Shorter.refl (w : Word) : Shorter w w := ⟨Nat.le_refl _, rfl, fun _ h => Or.inl h⟩

theorem Shorter.trans {a b c : Word} (h : Shorter a b) (k : Shorter b c) : Shorter a c :=
  ⟨Nat.le_trans k.length h.length, k.head.trans h.head, fun x hx =>
    (k.letters x hx).elim (fun hb => h.letters x hb) Or.inr⟩

theorem head_append {u s : Word} (h : u ≠ []) : (u ++ s).head? = u.head? := by
  cases u with
  | nil => exact absurd rfl h
  | cons a l => rfl

theorem shorter_replace {u s r : Word} (hl : r.length ≤ s.length) (hr : ∀ c ∈ r, isLower c = true)
    (hh : u ≠ [] ∨ r.head? = s.head?) : Shorter (u ++ s) (u ++ r) := by
  refine ⟨by rw [List.length_append, List.length_append]; omega, ?_, fun c hc => ?_⟩
  · rcases hh with h | h
    · rw [head_append h, head_append h]
    · cases u with
      | nil => exact h
      | cons a l => rfl
  · rw [List.mem_append] at hc
    exact hc.imp (fun h => List.mem_append_left _ h) (hr c)

/-- what a list of rules has to satisfy -/
def Tame (l : List (Word × Word)) : Prop := ∀ x ∈ l, x.2.length ≤ x.1.length ∧ ∀ c ∈ x.2, isLower c = true

theorem rewrite_shorter {l : List (Word × Word)} {ok : Word → Word → Bool} {w : Word} (hl : Tame l)
    (hh : ∀ x ∈ l, x.1.isSuffixOf w = true → ok x.1 (less w x.1.length) = true → less w x.1.length ≠ [] ∨ x.2.head? = x.1.head?) :
    Shorter w (rewrite l ok w) := by
  unfold rewrite
  cases hf : l.find? (fun x => x.1.isSuffixOf w) with
  | none => exact Shorter.refl w
  | some x =>
    simp only []
    have hm := List.mem_of_find?_eq_some hf
    have hs : x.1.isSuffixOf w = true := by
      have := List.find?_some hf
      exact this
    split
    · rename_i hok
      have := shorter_replace (u := less w x.1.length) (hl x hm).1 (hl x hm).2 (hh x hm hs hok)
      rwa [← suffix_split hs] at this
    · exact Shorter.refl w

theorem shorter_less {w : Word} {n : Nat} (h : n < w.length) : Shorter w (less w n) := by
  have e : w = less w n ++ w.drop (w.length - n) := (List.take_append_drop _ _).symm
  have hne : less w n ≠ [] := by
    intro he
    have := congrArg List.length he
    rw [less_length] at this
    simp at this; omega
  have := shorter_replace (u := less w n) (s := w.drop (w.length - n)) (r := []) (by simp) (by simp) (Or.inl hne)
  rwa [← e, List.append_nil] at this

theorem measure_nil : measure [] = 0 := by decide

theorem ne_of_measure {u : Word} (h : 0 < measure u) : u ≠ [] := by
  rintro rfl; rw [measure_nil] at h; omega

theorem step1a_shorter {w : Word} (h : 3 ≤ w.length) : Shorter w (step1a w) := by
  refine rewrite_shorter (by unfold Tame; decide) fun x hx _ _ => ?_
  simp only [List.mem_cons, List.not_mem_nil, or_false] at hx
  rcases hx with rfl | rfl | rfl | rfl
  · exact Or.inr rfl
  · exact Or.inr rfl
  · exact Or.inr rfl
  · left
    intro he
    have := congrArg List.length he
    rw [less_length] at this
    simp at this; omega

theorem doubleC_two {w : Word} (h : doubleC w = true) : 2 ≤ w.length := by
  unfold doubleC at h
  match hr : w.reverse with
  | [] => rw [hr] at h; cases h
  | [a] => rw [hr] at h; cases h
  | a :: b :: l => rw [← List.length_reverse, hr]; simp

/-- `mend` after at least two letters were removed -/
theorem mend_shorter {u s : Word} (hu : u ≠ []) (hs : 2 ≤ s.length) : Shorter (u ++ s) (mend u) := by
  have he : Shorter (u ++ s) (u ++ w!"e") := shorter_replace (by simp; omega) (by decide) (Or.inl hu)
  have h0 : Shorter (u ++ s) u := by
    have := shorter_replace (u := u) (s := s) (r := []) (by simp) (by simp) (Or.inl hu)
    rwa [List.append_nil] at this
  unfold mend
  split
  · exact he
  · split
    · rename_i hd
      simp only [Bool.and_eq_true] at hd
      have := doubleC_two hd.1
      exact h0.trans (shorter_less (by omega))
    · split
      · exact he
      · exact h0

theorem step1b_shorter (w : Word) : Shorter w (step1b w) := by
  unfold step1b
  split
  · rename_i h
    split
    · have := congrArg List.length (suffix_split h)
      rw [List.length_append] at this
      simp only [List.length_cons, List.length_nil] at this
      exact shorter_less (by omega)
    · exact Shorter.refl w
  · split
    · rename_i h
      split
      · rename_i hv
        have := mend_shorter (s := w!"ed") (hasVowel_ne hv) (by decide)
        rw [show (2 : Nat) = w!"ed".length from rfl] at this ⊢
        rwa [← suffix_split h] at this
      · exact Shorter.refl w
    · split
      · rename_i h
        split
        · rename_i hv
          have := mend_shorter (s := w!"ing") (hasVowel_ne hv) (by decide)
          rw [show (3 : Nat) = w!"ing".length from rfl] at this ⊢
          rwa [← suffix_split h] at this
        · exact Shorter.refl w
      · exact Shorter.refl w

theorem step1c_shorter (w : Word) : Shorter w (step1c w) := by
  refine rewrite_shorter (by unfold Tame; decide) fun x hx _ h => Or.inl ?_
  exact hasVowel_ne h

theorem step2_shorter (w : Word) : Shorter w (step2 w) := by
  refine rewrite_shorter (by unfold Tame; decide) fun x _ _ h => Or.inl (ne_of_measure ?_)
  simpa using h

theorem step3_shorter (w : Word) : Shorter w (step3 w) := by
  refine rewrite_shorter (by unfold Tame; decide) fun x _ _ h => Or.inl (ne_of_measure ?_)
  simpa using h

theorem step4_shorter (w : Word) : Shorter w (step4 w) := by
  refine rewrite_shorter (by unfold Tame; decide) fun x _ _ h => Or.inl (ne_of_measure ?_)
  simp only [Bool.and_eq_true, decide_eq_true_eq] at h
  omega

theorem step5a_shorter (w : Word) : Shorter w (step5a w) := by
  refine rewrite_shorter (by unfold Tame; decide) fun x _ _ h => Or.inl (ne_of_measure ?_)
  simp only [Bool.or_eq_true, Bool.and_eq_true, decide_eq_true_eq, beq_iff_eq] at h
  omega

theorem step5b_shorter (w : Word) : Shorter w (step5b w) := by
  unfold step5b
  split
  · rename_i h
    simp only [Bool.and_eq_true] at h
    have := doubleC_two h.1.2
    exact shorter_less (by omega)
  · exact Shorter.refl w

theorem stem_shorter (w : Word) : Shorter w (stem w) := by
  unfold stem
  split
  · exact Shorter.refl w
  · exact (((((((step1a_shorter (by omega)).trans (step1b_shorter _)).trans (step1c_shorter _)).trans (step2_shorter _)).trans
      (step3_shorter _)).trans (step4_shorter _)).trans (step5a_shorter _)).trans (step5b_shorter _)

/-! ### copying -/

theorem letter_eq (c : UInt8) : Code.letter c = (isUpper c || isLower c) := by
  unfold Code.letter isUpper isLower
  simp only [UInt8.le_iff_toNat_le]
  rfl

theorem lower_eq (c : UInt8) : Code.lower c = small c := by
  unfold Code.lower small isUpper
  simp only [UInt8.le_iff_toNat_le]
  rfl

theorem copy_eq : ∀ {w : Word} {pre t : Word}, (∀ c ∈ w, Code.letter c = true) → w.length ≤ t.length →
    Code.copy w pre.length (pre ++ t) = some (pre ++ w.map Code.lower ++ t.drop w.length) := by
  intro w
  induction w with
  | nil => intro pre t _ _; simp [Code.copy]
  | cons c w ih =>
    intro pre t hl ht
    have hc := hl c (List.mem_cons_self ..)
    have hz : c ≠ 0 := by rintro rfl; exact absurd hc (by decide)
    rw [Code.copy, if_neg hz, if_pos hc]
    cases t with
    | nil => simp at ht
    | cons a t =>
      have e : (pre ++ a :: t).set pre.length (Code.lower c) = (pre ++ [Code.lower c]) ++ t := by simp
      have e2 : pre.length + 1 = (pre ++ [Code.lower c]).length := by simp
      rw [e, e2, ih (fun x hx => hl x (List.mem_cons_of_mem _ hx)) (by simpa using ht)]
      simp

theorem copy_none : ∀ {w : Word} {pos : Nat} {b : List UInt8}, (∀ c ∈ w, c ≠ 0) → (∃ c ∈ w, Code.letter c = false) →
    Code.copy w pos b = none := by
  intro w
  induction w with
  | nil => intro _ _ _ ⟨c, hc, _⟩; simp at hc
  | cons c w ih =>
    intro pos b hz ⟨d, hd, hl⟩
    rw [Code.copy, if_neg (hz c (List.mem_cons_self ..))]
    by_cases h : Code.letter c = true
    · rw [if_pos h]
      refine ih (fun x hx => hz x (List.mem_cons_of_mem _ hx)) ?_
      rcases List.mem_cons.1 hd with rfl | hd
      · rw [h] at hl; cases hl
      · exact ⟨d, hd, hl⟩
    · rw [if_neg h]

theorem copied_length : ∀ {w : Word} {pos : Nat} {b : List UInt8}, (Code.copied w pos b).length = b.length := by
  intro w
  induction w with
  | nil => intro _ _; rfl
  | cons c w ih =>
    intro pos b
    rw [Code.copied]
    split
    · rfl
    · split
      · rw [ih, List.length_set]
      · rfl

/-- a stemmer's buffer has 33 bytes -/
def Sound (x : Code.Stemmer) : Prop := x.b.length = 33

theorem stemCode_eq {below : Option UInt8} {word : Word} {x : Code.Stemmer} (hx : Sound x) (hz : ∀ c ∈ word, c ≠ 0)
    (hs : below.isSome ∨ (Stemmable word → Safe (word.map small))) :
    ∃ x', Code.stemCode below word x = some ((answer word).1, (answer word).2, x') ∧ Sound x' := by
  unfold Code.stemCode answer
  by_cases hl : word.length < 3 ∨ word.length > 32
  · rw [if_pos hl, if_neg (by unfold Stemmable; omega)]
    exact ⟨x, rfl, hx⟩
  · rw [if_neg hl]
    by_cases ha : ∀ c ∈ word, Code.letter c = true
    · have hst : Stemmable word := by
        refine ⟨by omega, by omega, fun c hc => ?_⟩
        have := ha c hc
        rw [letter_eq] at this
        simpa using this
      have hcopy := copy_eq (pre := []) (t := x.b) ha (by rw [hx]; omega)
      have hmap : word.map Code.lower = word.map small := List.map_congr_left fun c _ => lower_eq c
      rw [List.nil_append, List.nil_append, hmap] at hcopy
      rw [if_pos hst]
      simp only [List.length_nil] at hcopy
      rw [hcopy]
      have hrep : Rep 33 ⟨word.map small ++ x.b.drop word.length, (word.length : Int) - 1, x.j⟩ (word.map small) := by
        refine ⟨⟨_, rfl, ?_⟩, ?_, ?_⟩
        · rw [List.length_map, List.length_drop, hx]; omega
        · simp
        · intro e
          have := congrArg List.length e
          rw [List.length_map] at this
          simp only [List.length_nil] at this; omega
      obtain ⟨st', e1, r1⟩ := porter_eq (below := below) hrep (hs.imp id fun h => h hst)
      simp only [bind, e1, Option.bind_some]
      obtain ⟨t, ht, hn⟩ := r1.buf
      refine ⟨⟨st'.b, st'.j⟩, ?_, ?_⟩
      · have : st'.b.take (st'.k + 1).toNat = stem (word.map small) := by
          rw [r1.k, ht]
          have : ((stem (word.map small)).length - 1 + 1 : Int).toNat = (stem (word.map small)).length := by omega
          rw [this]
          simp
        rw [this]
      · show st'.b.length = 33
        rw [ht, List.length_append, hn]
    · have hst : ¬Stemmable word := by
        intro h
        refine ha fun c hc => ?_
        rw [letter_eq]
        simpa using h.2.2 c hc
      have hex : ∃ c ∈ word, Code.letter c = false := by
        apply Classical.byContradiction
        intro hno
        refine ha fun c hc => ?_
        cases h : Code.letter c with
        | true => rfl
        | false => exact absurd ⟨c, hc, h⟩ hno
      rw [copy_none hz hex, if_neg hst]
      exact ⟨_, rfl, by show (Code.copied word 0 x.b).length = 33; rw [copied_length]; exact hx⟩

theorem stemCode_none {word : Word} {x : Code.Stemmer} (hx : Sound x) (hst : Stemmable word) (hs : ¬Safe (word.map small)) :
    Code.stemCode none word x = none := by
  unfold Code.stemCode
  obtain ⟨h1, h2, h3⟩ := hst
  rw [if_neg (by omega)]
  have ha : ∀ c ∈ word, Code.letter c = true := fun c hc => by rw [letter_eq]; simpa using h3 c hc
  have hcopy := copy_eq (pre := []) (t := x.b) ha (by rw [hx]; omega)
  have hmap : word.map Code.lower = word.map small := List.map_congr_left fun c _ => lower_eq c
  rw [List.nil_append, List.nil_append, hmap] at hcopy
  simp only [List.length_nil] at hcopy
  rw [hcopy]
  have hrep : Rep 33 ⟨word.map small ++ x.b.drop word.length, (word.length : Int) - 1, x.j⟩ (word.map small) := by
    refine ⟨⟨_, rfl, ?_⟩, ?_, ?_⟩
    · rw [List.length_map, List.length_drop, hx]; omega
    · simp
    · intro e
      have := congrArg List.length e
      rw [List.length_map] at this
      simp only [List.length_nil] at this; omega
  simp only [bind, porter_none hrep hs]
  rfl

end Verif.Stem
