import Verif.Examples.Model
/-
  C107: the example queries compute what the SQL beside them says.
-/
namespace Verif.Props
open Verif.Examples

theorem rate_fold (vs : List Rat) : ∀ r : Ratings, (vs.foldl rate r).total = vs.foldl (· + ·) r.total ∧ (vs.foldl rate r).restaurants = r.restaurants + vs.length ∧
    ((vs.foldl rate r).least = r.least ∨ (vs.foldl rate r).least ∈ vs) ∧ (vs.foldl rate r).least ≤ r.least ∧ (∀ v ∈ vs, (vs.foldl rate r).least ≤ v) ∧
    ((vs.foldl rate r).greatest = r.greatest ∨ (vs.foldl rate r).greatest ∈ vs) ∧ r.greatest ≤ (vs.foldl rate r).greatest ∧ ∀ v ∈ vs, v ≤ (vs.foldl rate r).greatest := by
  induction vs with
  | nil =>
    intro r
    refine ⟨rfl, ?_, .inl rfl, Rat.le_refl, by simp, .inl rfl, Rat.le_refl, by simp⟩
    simp only [List.foldl_nil, List.length_nil]
    grind
  | cons v vs ih =>
    intro r
    obtain ⟨a, b, c, c1, c2, g, g1, g2⟩ := ih (rate r v)
    rw [List.foldl_cons]
    have hl : (rate r v).least ≤ r.least ∧ (rate r v).least ≤ v ∧ ((rate r v).least = r.least ∨ (rate r v).least = v) := by
      unfold rate
      dsimp only
      split <;> grind
    have hg : r.greatest ≤ (rate r v).greatest ∧ v ≤ (rate r v).greatest ∧ ((rate r v).greatest = r.greatest ∨ (rate r v).greatest = v) := by
      unfold rate
      dsimp only
      split <;> grind
    have hn : (rate r v).restaurants = r.restaurants + 1 := rfl
    refine ⟨a, ?_, ?_, Rat.le_trans c1 hl.1, ?_, ?_, Rat.le_trans hg.1 g1, ?_⟩
    · rw [b, hn, List.length_cons]
      grind
    · rcases c with c | c
      · rw [c]
        rcases hl.2.2 with e | e
        · exact .inl e
        · exact .inr (by rw [e]; simp)
      · exact .inr (by simp [c])
    · intro x hx
      rcases List.mem_cons.1 hx with e | e
      · rw [e]; exact Rat.le_trans c1 hl.2.1
      · exact c2 x e
    · rcases g with c | c
      · rw [c]
        rcases hg.2.2 with e | e
        · exact .inl e
        · exact .inr (by rw [e]; simp)
      · exact .inr (by simp [c])
    · intro x hx
      rcases List.mem_cons.1 hx with e | e
      · rw [e]; exact Rat.le_trans hg.2.1 g1
      · exact g2 x e

/-- **C107** (MIN and MAX): of one rating or more, the first number printed is the least and the last is the greatest -/
theorem C107_least_greatest (v : Rat) (vs : List Rat) : ((printed (v :: vs)).1 ∈ v :: vs ∧ ∀ x ∈ v :: vs, (printed (v :: vs)).1 ≤ x) ∧
    (printed (v :: vs)).2.2 ∈ v :: vs ∧ ∀ x ∈ v :: vs, x ≤ (printed (v :: vs)).2.2 := by
  obtain ⟨-, -, c, -, c2, g, -, g2⟩ := rate_fold (v :: vs) ⟨v, v, v, 1⟩
  refine ⟨⟨?_, c2⟩, ?_, g2⟩
  · rcases c with c | c
    · show ((v :: vs).foldl rate ⟨v, v, v, 1⟩).least ∈ _
      rw [c]; simp
    · exact c
  · rcases g with c | c
    · show ((v :: vs).foldl rate ⟨v, v, v, 1⟩).greatest ∈ _
      rw [c]; simp
    · exact c

theorem foldl_add (vs : List Rat) : ∀ a : Rat, vs.foldl (· + ·) a = a + sum vs := by
  unfold Verif.Examples.sum
  induction vs with
  | nil => intro a; simp only [List.foldl_nil]; grind
  | cons v vs ih =>
    intro a
    rw [List.foldl_cons, List.foldl_cons, ih, ih (0 + v)]
    grind

/-- **The first rating counts twice**: what is printed as an average is that of the ratings with the first once more -/
theorem C107_twice (v : Rat) (vs : List Rat) : (printed (v :: vs)).2.1 = average (v :: v :: vs) := by
  obtain ⟨a, b, -⟩ := rate_fold (v :: vs) ⟨v, v, v, 1⟩
  show ((v :: vs).foldl rate ⟨v, v, v, 1⟩).total / ((v :: vs).foldl rate ⟨v, v, v, 1⟩).restaurants = _
  rw [a, b]
  unfold average Verif.Examples.sum
  congr 1
  · show (v :: vs).foldl (· + ·) v = (v :: vs).foldl (· + ·) (0 + v)
    rw [Rat.zero_add]
  · simp only [List.length_cons]
    grind

/-- **C107** (AVG), in part: it is the average when, and only when, the first rating is.  Missing: all other ratings, for which it is wrong. -/
theorem C107_average_partial (v : Rat) (vs : List Rat) : (printed (v :: vs)).2.1 = average (v :: vs) ↔ v = average (v :: vs) := by
  rw [C107_twice]
  have e : sum (v :: v :: vs) = v + sum (v :: vs) := by
    show (v :: vs).foldl (· + ·) (0 + v) = _
    rw [foldl_add, Rat.zero_add]
  unfold average
  rw [e]
  have hn : ((v :: v :: vs).length : Rat) = ((v :: vs).length : Rat) + 1 := by
    simp only [List.length_cons]
    grind
  rw [hn]
  have h0 : (0 : Rat) < ((v :: vs).length : Rat) := by
    simp only [List.length_cons]
    exact_mod_cast Nat.succ_pos _
  generalize ((v :: vs).length : Rat) = n at h0
  generalize sum (v :: vs) = s
  have h1 : n ≠ 0 := by grind
  have h2 : n + 1 ≠ 0 := by grind
  constructor
  · intro h
    grind
  · intro h
    grind

/-- without ratings three zeros are printed -/
theorem C107_no_ratings : printed [] = (0, 0, 0) := by decide +kernel

theorem countOne_find (x y : List Char) : ∀ m : List (List Char × Nat), (m.map (·.1)).Nodup →
    ((countOne x m).map (·.1)).Nodup ∧ (∀ k, k ∈ (countOne x m).map (·.1) ↔ k = x ∨ k ∈ m.map (·.1)) ∧ ((countOne x m).lookup y).getD 0 = (m.lookup y).getD 0 + if y = x then 1 else 0 := by
  intro m
  induction m with
  | nil =>
    intro _
    refine ⟨by simp [countOne], by simp [countOne], ?_⟩
    by_cases h : y = x
    · subst h; simp [countOne, List.lookup]
    · have : (y == x) = false := by simpa using h
      simp [countOne, List.lookup, this, h]
  | cons a m ih =>
    intro hn
    obtain ⟨z, n⟩ := a
    have hn' : z ∉ m.map (·.1) ∧ (m.map (·.1)).Nodup := by simpa using hn
    obtain ⟨i1, i2, i3⟩ := ih hn'.2
    unfold countOne
    by_cases h : z = x
    · subst h
      rw [if_pos rfl]
      refine ⟨hn, by simp, ?_⟩
      by_cases hy : y = z
      · subst hy; simp [List.lookup]
      · have : (y == z) = false := by simpa using hy
        simp [List.lookup, this, hy]
    · rw [if_neg h]
      refine ⟨?_, ?_, ?_⟩
      · rw [List.map_cons, List.nodup_cons]
        refine ⟨fun c => ?_, i1⟩
        rcases (i2 z).1 c with c | c
        · exact h c
        · exact hn'.1 c
      · intro k
        rw [List.map_cons, List.mem_cons, i2, List.map_cons, List.mem_cons]
        constructor
        · rintro (c | c | c)
          · exact .inr (.inl c)
          · exact .inl c
          · exact .inr (.inr c)
        · rintro (c | c | c)
          · exact .inr (.inl c)
          · exact .inl c
          · exact .inr (.inr c)
      · by_cases hy : y = z
        · subst hy
          simp [List.lookup, h]
        · have : (y == z) = false := by simpa using hy
          simp only [List.lookup, this]
          exact i3

/-- **C107** (GROUP BY): there is one line for each text that is a solution, and no other, with the number of solutions that are this text -/
theorem C107_groups (xs : List (List Char)) : ((groups xs).map (·.1)).Nodup ∧ (∀ k, k ∈ (groups xs).map (·.1) ↔ k ∈ xs) ∧ ∀ y, ((groups xs).lookup y).getD 0 = xs.count y := by
  have key : ∀ (xs : List (List Char)) (m : List (List Char × Nat)), (m.map (·.1)).Nodup →
      ((xs.foldl (fun m x => countOne x m) m).map (·.1)).Nodup ∧ (∀ k, k ∈ (xs.foldl (fun m x => countOne x m) m).map (·.1) ↔ k ∈ xs ∨ k ∈ m.map (·.1)) ∧
      ∀ y, ((xs.foldl (fun m x => countOne x m) m).lookup y).getD 0 = (m.lookup y).getD 0 + xs.count y := by
    intro xs
    induction xs with
    | nil => intro m h; exact ⟨h, by simp, by simp⟩
    | cons x xs ih =>
      intro m h
      have c := fun y => countOne_find x y m h
      obtain ⟨i1, i2, i3⟩ := ih (countOne x m) (c x).1
      refine ⟨i1, fun k => ?_, fun y => ?_⟩
      · rw [List.foldl_cons, i2, (c x).2.1, List.mem_cons]
        constructor
        · rintro (a | a | a)
          · exact .inl (.inr a)
          · exact .inl (.inl a)
          · exact .inr a
        · rintro ((a | a) | a)
          · exact .inr (.inl a)
          · exact .inl a
          · exact .inr (.inr a)
      · rw [List.foldl_cons, i3, (c y).2.2, List.count_cons]
        by_cases hy : y = x
        · subst hy; simp; omega
        · have : (x == y) = false := by simpa using fun e => hy e.symm
          simp [hy, this]
  obtain ⟨a, b, c⟩ := key xs [] (by simp)
  exact ⟨a, fun k => (b k).trans (by simp), fun y => (c y).trans (by simp)⟩

/-- **All titles of the file are of the year**: when one file has all titles, and one mark of the year, then every title is printed, whatever year its book is of -/
theorem C107_all_titles (titles : List Span) (file m : Span) (marks : List Span) (ht : ∀ t ∈ titles, inside t file = true) (hm : m ∈ marks) (hin : inside m file = true) :
    titlesOfYear titles [file] marks = titles := by
  unfold titlesOfYear
  rw [List.filter_eq_self]
  intro t h
  simp only [List.any_cons, List.any_nil, Bool.or_false, ht t h, Bool.true_and, List.any_eq_true]
  exact ⟨m, hm, hin⟩

/-- **C107** (titles of a year), in part: when each book is a file of its own, they are the titles of books with a mark of the year in them.  Missing: files with several books. -/
theorem C107_year_partial (titles books marks : List Span) (t : Span) : t ∈ titlesOfYear titles books marks ↔ t ∈ titles ∧ ∃ b ∈ books, (b.p ≤ t.p ∧ t.q ≤ b.q) ∧ ∃ m ∈ marks, b.p ≤ m.p ∧ m.q ≤ b.q := by
  unfold titlesOfYear inside
  simp [List.mem_filter, List.any_eq_true]

/-- what `tau` finds is in the book if and only if something is, and then it is the first that is -/
theorem first_in {l : List Span} (h : InOrder l) (b : Span) : (∀ x, firstFrom l b.p = some x → x.q ≤ b.q → FirstIn l b x) ∧
    ((∃ y ∈ l, b.p ≤ y.p ∧ y.q ≤ b.q) → ∃ x, firstFrom l b.p = some x ∧ x.q ≤ b.q) := by
  induction l with
  | nil => exact ⟨fun x h => (by cases h), fun ⟨y, h, _⟩ => (by cases h)⟩
  | cons a l ih =>
    obtain ⟨i1, i2⟩ := ih h.2
    unfold firstFrom at *
    by_cases c : b.p ≤ a.p
    · rw [List.find?_cons_of_pos (p := fun x : Span => decide (b.p ≤ x.p)) (by simpa using c)]
      constructor
      · intro x e hq
        injection e with e
        subst e
        refine ⟨by simp, c, hq, fun y hy _ _ => ?_⟩
        rcases List.mem_cons.1 hy with e | e
        · rw [e]; exact Int.le_refl _
        · exact Int.le_of_lt (h.1 y e).1
      · rintro ⟨y, hy, -, hq⟩
        refine ⟨a, rfl, ?_⟩
        rcases List.mem_cons.1 hy with e | e
        · rw [← e]; exact hq
        · have := (h.1 y e).2; omega
    · rw [List.find?_cons_of_neg (p := fun x : Span => decide (b.p ≤ x.p)) (by simpa using c)]
      constructor
      · intro x e hq
        obtain ⟨a1, a2, a3, a4⟩ := i1 x e hq
        refine ⟨by simp [a1], a2, a3, fun y hy g g' => ?_⟩
        rcases List.mem_cons.1 hy with e' | e'
        · rw [e'] at g; exact absurd g c
        · exact a4 y e' g g'
      · rintro ⟨y, hy, g, g'⟩
        rcases List.mem_cons.1 hy with e' | e'
        · rw [e'] at g; exact absurd g c
        · exact i2 ⟨y, e', g, g'⟩

theorem same_start {l : List Span} (h : InOrder l) {x y : Span} (hx : x ∈ l) (hy : y ∈ l) (hp : x.p = y.p) : x = y := by
  induction l with
  | nil => cases hx
  | cons a l ih =>
    rcases List.mem_cons.1 hx with e1 | e1 <;> rcases List.mem_cons.1 hy with e2 | e2
    · rw [e1, e2]
    · have := (h.1 y e2).1; rw [← e1] at this; omega
    · have := (h.1 x e1).1; rw [← e2] at this; omega
    · exact ih h.2 e1 e2

theorem first_in_unique {l : List Span} (h : InOrder l) {b x : Span} (hx : FirstIn l b x) : firstFrom l b.p = some x ∧ x.q ≤ b.q := by
  obtain ⟨i1, i2⟩ := first_in h b
  obtain ⟨y, e, hq⟩ := i2 ⟨x, hx.1, hx.2.1, hx.2.2.1⟩
  have hy := i1 y e hq
  have h1 := hx.2.2.2 y hy.1 hy.2.1 hy.2.2.1
  have h2 := hy.2.2.2 x hx.1 hx.2.1 hx.2.2.1
  have : x = y := same_start h hx.1 hy.1 (by omega)
  subst this
  exact ⟨e, hq⟩

/-- **C107** (authors), in part: a book that has the authors `xs` at the first places of its array, and none at the next, is printed with the text of each, in order, but for those that are two quotes and a space.
Missing: that this is how all empty names look. -/
theorem C107_authors_partial (text : Span → List Char) (b : Span) : ∀ (xs : List Span) (here : List (List Span)) (rest : List (List Span)), (∀ l ∈ here, InOrder l) → (∀ l ∈ rest, InOrder l) →
    xs.length = here.length → (∀ (i : Nat) (x : Span) (l : List Span), xs[i]? = some x → here[i]? = some l → FirstIn l b x) →
    (∀ l, rest.head? = some l → ∀ y ∈ l, ¬ (b.p ≤ y.p ∧ y.q ≤ b.q)) → authorsOf text b (here ++ rest) = (xs.map text).filter fun t => t ≠ ['"', '"', ' '] := by
  intro xs
  induction xs with
  | nil =>
    intro here rest _ ho hl _ hr
    have : here = [] := List.eq_nil_of_length_eq_zero (by simpa using hl.symm)
    subst this
    cases rest with
    | nil => rfl
    | cons l rest =>
      show authorsOf text b (l :: rest) = []
      unfold authorsOf
      cases e : firstFrom l b.p with
      | none => rfl
      | some x =>
        dsimp only
        rw [if_pos]
        have hx := (first_in (ho l (by simp)) b).1 x e
        by_cases hq : x.q ≤ b.q
        · have := hx hq
          exact absurd ⟨this.2.1, this.2.2.1⟩ (hr l rfl x this.1)
        · omega
  | cons x xs ih =>
    intro here rest hh ho hl hf hr
    cases here with
    | nil => simp at hl
    | cons l here =>
      obtain ⟨e, hq⟩ := first_in_unique (hh l (by simp)) (hf 0 x l rfl rfl)
      have ih' := ih here rest (fun l hl => hh l (by simp [hl])) ho (by simpa using hl) (fun i y k h1 h2 => hf (i + 1) y k (by simpa using h1) (by simpa using h2)) hr
      show authorsOf text b (l :: (here ++ rest)) = _
      unfold authorsOf
      rw [e]
      dsimp only
      rw [if_neg (by omega), ih', List.map_cons]
      split
      · rename_i ht
        rw [List.filter_cons_of_neg (by simpa using ht)]
      · rename_i ht
        rw [List.filter_cons_of_pos (by simpa using ht)]

/-- **C107** (titles): a book that has a title is printed with the first of them, once for each author, unless that title is two quotes; one without a title is not printed -/
theorem C107_titles {text : Span → List Char} {titles : List Span} (h : InOrder titles) (authors : List (List Span)) (b : Span) :
    (∀ t, FirstIn titles b t → bookLines text titles authors b = if text t = ['"', '"'] then [] else (authorsOf text b authors).map fun a => (text t, a)) ∧
    ((∀ t ∈ titles, ¬ (b.p ≤ t.p ∧ t.q ≤ b.q)) → bookLines text titles authors b = []) := by
  constructor
  · intro t ht
    obtain ⟨e, hq⟩ := first_in_unique h ht
    unfold bookLines
    rw [e]
    dsimp only
    rw [if_neg (by omega)]
  · intro hn
    unfold bookLines
    cases e : firstFrom titles b.p with
    | none => rfl
    | some x =>
      dsimp only
      rw [if_pos]
      by_cases hq : x.q ≤ b.q
      · have := (first_in h b).1 x e hq
        exact absurd ⟨this.2.1, this.2.2.1⟩ (hn x this.1)
      · omega

/-- **C107** (lines): a line is printed if and only if a book has its title as the first and its author, and the title is not two quotes -/
theorem C107_lines {text : Span → List Char} {titles : List Span} (h : InOrder titles) (authors : List (List Span)) (books : List Span) (l : List Char × List Char) :
    l ∈ bookJoin text titles authors books ↔ ∃ b ∈ books, ∃ t, FirstIn titles b t ∧ text t ≠ ['"', '"'] ∧ l.1 = text t ∧ l.2 ∈ authorsOf text b authors := by
  unfold bookJoin
  rw [List.mem_flatMap]
  constructor
  · rintro ⟨b, hb, hl⟩
    refine ⟨b, hb, ?_⟩
    by_cases hn : ∀ t ∈ titles, ¬ (b.p ≤ t.p ∧ t.q ≤ b.q)
    · rw [(C107_titles h authors b).2 hn] at hl
      cases hl
    · have hex : ∃ y ∈ titles, b.p ≤ y.p ∧ y.q ≤ b.q := by
        apply Classical.byContradiction
        intro c
        exact hn fun t ht g => c ⟨t, ht, g⟩
      obtain ⟨x, e, hq⟩ := (first_in h b).2 hex
      have hx := (first_in h b).1 x e hq
      rw [(C107_titles h authors b).1 x hx] at hl
      split at hl
      · cases hl
      · rename_i hne
        obtain ⟨a, ha, e⟩ := List.mem_map.1 hl
        exact ⟨x, hx, hne, by rw [← e], by rw [← e]; exact ha⟩
  · rintro ⟨b, hb, t, ht, hne, e1, e2⟩
    refine ⟨b, hb, ?_⟩
    rw [(C107_titles h authors b).1 t ht, if_neg hne]
    exact List.mem_map.2 ⟨l.2, e2, by rw [← e1]⟩

/-- **Empty titles and empty authors are not both left out**: they are looked for as different texts, so that an author who is named by the text of an empty title is printed -/
theorem C107_empty_author {text : Span → List Char} {t a : Span} (b : Span) (hi : b.p ≤ a.p ∧ a.q ≤ b.q) (he : text t = text a) (ht : text t = ['"', '"']) (authors : List (List Span)) :
    bookLines text [t] authors b = [] ∧ authorsOf text b [[a]] = [['"', '"']] := by
  constructor
  · unfold bookLines
    split
    · rfl
    · rename_i x e
      have : x = t := by
        have := List.mem_of_find?_eq_some e
        simpa using this
      subst this
      rw [if_pos ht]
      split <;> rfl
  · have e : firstFrom [a] b.p = some a := by
      unfold firstFrom
      rw [List.find?_cons_of_pos (p := fun x : Span => decide (b.p ≤ x.p)) (by simpa using hi.1)]
    unfold authorsOf
    rw [e]
    dsimp only
    rw [if_neg (by omega), ← he, ht, if_neg (by decide)]
    rfl

/-- **C107** (dates, in digits): the year, month and day are those of the text -/
theorem C107_iso (y1 y2 y3 y4 m1 m2 d1 d2 : Char) (rest : List Char) : isoDate ('"' :: y1 :: y2 :: y3 :: y4 :: '-' :: m1 :: m2 :: '-' :: d1 :: d2 :: rest) = some ⟨[y1, y2, y3, y4], [m1, m2], [d1, d2]⟩ := by
  simp [isoDate, substr]

/-- a text that is too short ends the program -/
theorem C107_iso_short (s : List Char) (h : s.length < 9) : isoDate s = none := by
  have e : substr 9 2 s = none := by
    unfold substr
    rw [if_neg (by omega)]
  unfold isoDate
  rw [e]
  cases substr 1 4 s <;> cases substr 6 2 s <;> rfl

/-- the months are numbered in order, in two digits -/
theorem C107_months : monthNames.map month = (List.range 12).map fun i => twoDigits (i + 1) := by decide +kernel

/-- **C107** (dates of inspections): for every name of a month, a day of two digits or of one after a space is two digits -/
theorem C107_inspection (a b c d1 d2 y1 y2 y3 y4 : Char) (rest : List Char) :
    inspectionDate ('"' :: a :: b :: c :: ' ' :: d1 :: d2 :: ' ' :: y1 :: y2 :: y3 :: y4 :: rest) = some ⟨[y1, y2, y3, y4], month [a, b, c], [if d1 = ' ' then '0' else d1, d2]⟩ := by
  by_cases h : d1 = ' '
  · subst h
    simp [inspectionDate, substr]
  · simp [inspectionDate, substr, h]

/-- **C107** (dates of companies), in part: month and year are those of the text, and the day is its two characters.  Missing: days of one digit after a space. -/
theorem C107_company_partial (w1 w2 w3 a b c d1 d2 y1 y2 y3 y4 : Char) (time : List Char) (rest : List Char) (ht : time.length = 14) :
    companyDate ('"' :: w1 :: w2 :: w3 :: ' ' :: a :: b :: c :: ' ' :: d1 :: d2 :: (time ++ y1 :: y2 :: y3 :: y4 :: rest)) = some ⟨[y1, y2, y3, y4], month [a, b, c], [d1, d2]⟩ := by
  have e1 : (time ++ y1 :: y2 :: y3 :: y4 :: rest).drop 14 = y1 :: y2 :: y3 :: y4 :: rest := by
    rw [← ht, List.drop_left]
  simp [companyDate, substr, e1, ht]

/-- **A day is marked in two ways**: with a space before its digit, the day of an inspection is `05` and that of a company ` 5`, which no query for `day=05` finds -/
theorem C107_unpadded (w1 w2 w3 a b c d y1 y2 y3 y4 : Char) (time : List Char) (ht : time.length = 14) :
    (companyDate ('"' :: w1 :: w2 :: w3 :: ' ' :: a :: b :: c :: ' ' :: ' ' :: d :: (time ++ [y1, y2, y3, y4, '"']))).map (·.day) = some [' ', d] ∧
    (inspectionDate ('"' :: a :: b :: c :: ' ' :: ' ' :: d :: ' ' :: y1 :: y2 :: y3 :: y4 :: ['"'])).map (·.day) = some ['0', d] := by
  rw [C107_company_partial w1 w2 w3 a b c ' ' d y1 y2 y3 y4 time ['"'] ht, C107_inspection]
  exact ⟨rfl, rfl⟩

/-! ### examples -/

example : printed [4, 1, 1] = (1, 10 / 4, 4) ∧ average [4, 1, 1] = 2 := by decide +kernel
example : printed [2, 1, 3] = (1, 2, 3) ∧ average [2, 1, 3] = 2 := by decide +kernel
example : InOrder [⟨1, 2⟩, ⟨5, 6⟩] ∧ FirstIn [⟨1, 2⟩, ⟨5, 6⟩] ⟨3, 9⟩ ⟨5, 6⟩ := by simp [InOrder, FirstIn]
example : bookJoin (fun x => if x.p = 5 then ['T'] else if x.p = 15 then ['U'] else ['A']) [⟨5, 5⟩, ⟨15, 15⟩] [[⟨6, 6⟩, ⟨16, 16⟩], [⟨17, 17⟩]] [⟨4, 9⟩, ⟨14, 19⟩] = [(['T'], ['A']), (['U'], ['A']), (['U'], ['A'])] := by decide
example : groups [['a'], ['b'], ['a']] = [(['a'], 2), (['b'], 1)] := by decide
/-- two books in a file, of which one is of the year: both titles -/
example : titlesOfYear [⟨1, 3⟩, ⟨11, 13⟩] [⟨0, 19⟩] [⟨5, 5⟩] = [⟨1, 3⟩, ⟨11, 13⟩] ∧ titlesOfYear [⟨1, 3⟩, ⟨11, 13⟩] [⟨0, 9⟩, ⟨10, 19⟩] [⟨5, 5⟩] = [⟨1, 3⟩] := by decide
example : inspectionDate ['"', 'F', 'e', 'b', ' ', '2', '0', ' ', '2', '0', '1', '5', '"'] = some ⟨['2', '0', '1', '5'], ['0', '2'], ['2', '0']⟩ := by decide

end Verif.Props
