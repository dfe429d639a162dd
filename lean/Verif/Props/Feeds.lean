import Verif.Feeds.Model
import Verif.Props.Lines
/-
  C101: what is fed to the index, and the texts that are made for other programs, are the records and the words of their sources.
-/
namespace Verif.Props
open Verif.Feeds
open Verif.Judge (lines)
open Verif.Collect.Lines (Worded fileOf)

/-! ### passages -/

section
variable (tk : List Char → Nat)

theorem tsv_file (recs : List (List Char × List Char)) (s : Verif.Collect.Lines.Built)
    (hl : ∀ r ∈ recs, '\t' ∉ r.1 ∧ '\n' ∉ r.1 ∧ '\n' ∉ r.2) (hw : ∀ r ∈ recs, Worded tk r.1 ∧ Worded tk ('\t' :: r.2)) :
    Verif.Collect.Lines.run (tsvLine tk) (lines (fileOf (recs.map fun r => r.1 ++ '\t' :: r.2))) s =
      (.done, s.plus tk (recs.map fun r => paragraph r.1 ['\t' :: r.2])) := by
  rw [lines_file _ (by
    intro l h
    obtain ⟨r, hr, rfl⟩ := List.mem_map.1 h
    have := hl r hr
    simp [this.2.1, this.2.2])]
  apply run_all
  intro r hr s
  obtain ⟨h1, h2⟩ := at_tab r.1 r.2 (hl r hr).1
  unfold tsvLine
  rw [if_pos (by simp), h1, h2, passage_ok tk s (hw r hr).1 (hw r hr).2]

/-- **C101** (passages), in part: files of names and texts with tabs between them give a paragraph for each line, in order, with the name and the whole text, and marks over exactly these.  Missing:
names and texts without words (C90). -/
theorem C101_passages_partial : ∀ (files : List (List (List Char × List Char))) (s : Verif.Collect.Lines.Built),
    (∀ recs ∈ files, ∀ r ∈ recs, '\t' ∉ r.1 ∧ '\n' ∉ r.1 ∧ '\n' ∉ r.2) → (∀ recs ∈ files, ∀ r ∈ recs, Worded tk r.1 ∧ Worded tk ('\t' :: r.2)) →
    tsvFiles tk (files.map fun recs => some (fileOf (recs.map fun r => r.1 ++ '\t' :: r.2))) s = (.done, s.plus tk (files.flatten.map fun r => paragraph r.1 ['\t' :: r.2])) := by
  intro files
  induction files with
  | nil => intro s _ _; simp [tsvFiles, Verif.Props.with_nil]
  | cons recs files ih =>
    intro s hl hw
    rw [List.map_cons, tsvFiles, tsv_file tk recs s (hl recs (by simp)) (hw recs (by simp))]
    simp only [if_true]
    rw [ih _ (fun x hx => hl x (by simp [hx])) (fun x hx => hw x (by simp [hx])), with_append, List.flatten_cons, List.map_append]

/-- **A line without a tab ends the program with an exception**, and a file that cannot be opened with a refusal -/
theorem C101_no_tab (l : List Char) (s : Verif.Collect.Lines.Built) (h : '\t' ∉ l) : tsvLine tk l s = (.dies, s) := by
  unfold tsvLine
  rw [if_neg h]

/-- the program ends at the first such line, with what came before it in the index that is never finished -/
theorem C101_no_tab_file (recs : List (List Char × List Char)) (l : List Char) (rest : List (List Char)) (s : Verif.Collect.Lines.Built)
    (hw : ∀ r ∈ recs, '\t' ∉ r.1 ∧ Worded tk r.1 ∧ Worded tk ('\t' :: r.2)) (h : '\t' ∉ l) :
    Verif.Collect.Lines.run (tsvLine tk) ((recs.map fun r => r.1 ++ '\t' :: r.2) ++ l :: rest) s = (.dies, s.plus tk (recs.map fun r => paragraph r.1 ['\t' :: r.2])) := by
  induction recs generalizing s with
  | nil => simp [Verif.Collect.Lines.run, C101_no_tab tk l s h, with_nil]
  | cons r recs ih =>
    have hr := hw r (by simp)
    obtain ⟨h1, h2⟩ := at_tab r.1 r.2 hr.1
    have e : tsvLine tk (r.1 ++ '\t' :: r.2) s = (.done, s.plus tk [paragraph r.1 ['\t' :: r.2]]) := by
      unfold tsvLine
      rw [if_pos (by simp), h1, h2, passage_ok tk s hr.2.1 hr.2.2]
    rw [List.map_cons, List.cons_append, Verif.Collect.Lines.run, e]
    simp only
    rw [ih _ (fun x hx => hw x (by simp [hx])), with_append]
    rfl

/-- **A file that cannot be opened ends the program with a refusal**, after what came before it -/
theorem C101_no_file (files : List (Option (List Char))) (s : Verif.Collect.Lines.Built) : tsvFiles tk (none :: files) s = (.refused, s) := rfl

end

/-! ### dumps -/

theorem upTo_brace : ∀ (item after : List Char), '}' ∉ after → upToBrace (item ++ '}' :: after) = some (item ++ ['}']) := by
  intro item after h
  have key : ∀ (r : List Char), '}' ∉ r → ∀ t, (r ++ '}' :: t).dropWhile (· != '}') = '}' :: t := by
    intro r
    induction r with
    | nil => intro _ t; rfl
    | cons c r ih =>
      intro h t
      simp only [List.mem_cons, not_or] at h
      rw [List.cons_append, List.dropWhile_cons_of_pos (p := (· != '}')) (by simpa using fun e : c = '}' => h.1 e.symm), ih h.2]
  unfold upToBrace
  have e : (item ++ '}' :: after).reverse = after.reverse ++ '}' :: item.reverse := by simp
  rw [e, key _ (by simpa using h)]
  simp

/-- a line of a dump: an item, which ends with a brace, and what comes after it (a comma, a return) -/
def dumpLine (x : List Char × List Char) : List Char := x.1 ++ '}' :: x.2

theorem dump_lines (scribe : List Char → Bool) : ∀ (items : List (List Char × List Char)) (rest : List (List Char)), (∀ x ∈ items, '}' ∉ x.2) →
    dump scribe (items.map dumpLine ++ rest) = (dump scribe rest).map fun r => (items.map fun x => (x.1 ++ ['}'], scribe (x.1 ++ ['}']))) ++ r := by
  intro items
  induction items with
  | nil => intro rest _; simp
  | cons x items ih =>
    intro rest h
    rw [List.map_cons, List.cons_append, dump]
    have hne : ¬(dumpLine x = [] ∨ dumpLine x = ['['] ∨ dumpLine x = [']']) := by
      have hm : '}' ∈ dumpLine x := by simp [dumpLine]
      rintro (e | e | e) <;> · rw [e] at hm; revert hm; decide
    rw [if_neg hne]
    unfold dumpLine at *
    rw [upTo_brace x.1 x.2 (h x (by simp))]
    simp only
    rw [ih rest (fun y hy => h y (by simp [hy]))]
    cases dump scribe rest <;> simp

/-- **C101** (dumps): from a bracket, items with anything but a brace after them, and a bracket, line by line, the scribe gets exactly the items, in order -/
theorem C101_dump (scribe : List Char → Bool) (items : List (List Char × List Char)) (h : ∀ x ∈ items, '}' ∉ x.2 ∧ '\n' ∉ x.1 ∧ '\n' ∉ x.2) :
    (dump scribe (lines (fileOf (['['] :: (items.map fun x => x.1 ++ '}' :: x.2) ++ [[']']])))).map (·.map (·.1)) = some (items.map fun x => x.1 ++ ['}']) := by
  rw [lines_file _ (by
    intro l hl
    simp only [List.cons_append, List.mem_cons, List.mem_append, List.mem_map, List.not_mem_nil, or_false] at hl
    rcases hl with rfl | ⟨x, hx, rfl⟩ | rfl
    · decide
    · have := h x hx
      simp [this.2.1, this.2.2]
    · decide)]
  rw [List.cons_append, dump, if_pos (by simp)]
  have := dump_lines scribe items [[']']] (fun x hx => (h x hx).1)
  unfold dumpLine at this
  rw [this]
  simp [dump]

theorem dump_undefined (scribe : List Char → Bool) (l : List Char) (hl : '}' ∉ l) (h0 : l ≠ []) (h1 : l ≠ ['[']) (h2 : l ≠ [']']) (rest : List (List Char)) :
    dump scribe (l :: rest) = none := by
  have e : upToBrace l = none := by
    unfold upToBrace
    have : l.reverse.dropWhile (· != '}') = [] := by
      have hr : '}' ∉ l.reverse := by simpa using hl
      generalize l.reverse = r at hr
      induction r with
      | nil => rfl
      | cons c r ih =>
        simp only [List.mem_cons, not_or] at hr
        rw [List.dropWhile_cons_of_pos (p := (· != '}')) (by simpa using fun e : c = '}' => hr.1 e.symm), ih hr.2]
    rw [this]
  rw [dump, if_neg (by simp [h0, h1, h2]), e]

/-- **A line that is no bracket and has no brace is undefined behaviour**, whatever comes before it and after it: also a bracket with a return after it -/
theorem C101_no_brace (scribe : List Char → Bool) (before : List (List Char × List Char)) (hb : ∀ x ∈ before, '}' ∉ x.2) (l : List Char) (hl : '}' ∉ l) (h0 : l ≠ []) (h1 : l ≠ ['[']) (h2 : l ≠ [']'])
    (rest : List (List Char)) : dump scribe ((before.map fun x => x.1 ++ '}' :: x.2) ++ l :: rest) = none := by
  have := dump_lines scribe before (l :: rest) hb
  unfold dumpLine at this
  rw [this, dump_undefined scribe l hl h0 h1 h2 rest]
  rfl

/-- **Items that the scribe refuses are left out, and the program ends with 0**: none of two is taken, and the status is as good -/
theorem C101_refused : ∃ (scribe : List Char → Bool) (items : List (List Char × Bool)), dump scribe [['{', '}', ','], ['{', 'x', '}']] = some items ∧ (∀ x ∈ items, x.2 = false) ∧ items.length = 2 ∧ dumpStatus items = 0 :=
  ⟨fun _ => false, [(['{', '}'], false), (['{', 'x', '}'], false)], by decide +kernel, by decide, rfl, rfl⟩

/-! ### texts -/

theorem untag_plain : ∀ (t rest : List Char), '<' ∉ t → untag false (t ++ rest) = t ++ untag false rest := by
  intro t
  induction t with
  | nil => intro rest _; rfl
  | cons c t ih =>
    intro rest h
    simp only [List.mem_cons, not_or] at h
    rw [List.cons_append, untag, if_neg (fun e => h.1 e.symm), ih rest h.2]
    rfl

theorem untag_tag : ∀ (t rest : List Char), '>' ∉ t → '\n' ∉ t → untag true (t ++ '>' :: rest) = List.replicate (t.length + 1) ' ' ++ untag false rest := by
  intro t
  induction t with
  | nil => intro rest _ _; simp [untag]
  | cons c t ih =>
    intro rest h1 h2
    simp only [List.mem_cons, not_or] at h1 h2
    rw [List.cons_append, untag, if_neg (fun e => h1.1 e.symm), if_neg (fun e => h2.1 e.symm), ih rest h1.2 h2.2]
    rfl

def isGap (c : Char) : Prop := c = ' ' ∨ c = '\n' ∨ c = '\t' ∨ c = '\r'
instance (c : Char) : Decidable (isGap c) := by unfold isGap; infer_instance

theorem words_gap (cur : List Char) {c : Char} (hc : isGap c) (t : List Char) : wordsFrom cur (c :: t) = (if cur = [] then [] else [cur]) ++ wordsFrom [] t := by
  unfold isGap at hc
  rw [wordsFrom, if_pos hc]
  split <;> rfl

theorem words_char (cur : List Char) {c : Char} (hc : ¬isGap c) (t : List Char) : wordsFrom cur (c :: t) = wordsFrom (cur ++ [c]) t := by
  unfold isGap at hc
  rw [wordsFrom, if_neg hc]

theorem words_spaces : ∀ (n : Nat) (cur t : List Char), wordsFrom cur (List.replicate (n + 1) ' ' ++ t) = wordsFrom cur (' ' :: t) := by
  intro n
  induction n with
  | zero => intro cur t; rfl
  | succ n ih =>
    intro cur t
    rw [List.replicate_succ, List.cons_append, words_gap cur (.inl rfl), ih, words_gap [] (.inl rfl), words_gap cur (.inl rfl)]
    simp

theorem words_after : ∀ (a cur b b' : List Char), (∀ cur, wordsFrom cur b = wordsFrom cur b') → wordsFrom cur (a ++ b) = wordsFrom cur (a ++ b') := by
  intro a
  induction a with
  | nil => intro cur b b' h; exact h cur
  | cons c a ih =>
    intro cur b b' h
    rw [List.cons_append, List.cons_append]
    by_cases hc : isGap c
    · rw [words_gap cur hc, words_gap cur hc, ih _ _ _ h]
    · rw [words_char cur hc, words_char cur hc, ih _ _ _ h]

theorem words_untag : ∀ (ps : List Piece), (∀ p ∈ ps, p.Good) → ∀ cur, wordsFrom cur (untag false (ps.flatMap Piece.source)) = wordsFrom cur (ps.flatMap Piece.seen) := by
  intro ps
  induction ps with
  | nil => intro _ cur; rfl
  | cons p ps ih =>
    intro h cur
    have hi := ih (fun x hx => h x (by simp [hx]))
    have hp := h p (by simp)
    rw [List.flatMap_cons, List.flatMap_cons]
    cases p with
    | plain t =>
      rw [Piece.source, Piece.seen, untag_plain t _ hp]
      exact words_after t cur _ _ hi
    | tag t =>
      rw [Piece.source, Piece.seen, List.cons_append, List.append_assoc, untag, if_pos rfl]
      rw [show ['>'] ++ ps.flatMap Piece.source = '>' :: ps.flatMap Piece.source from rfl, untag_tag t _ hp.1 hp.2, List.cons_append, words_char cur (by decide), words_spaces]
      rw [List.cons_append, words_char cur (by decide)]
      exact words_after [' '] _ _ _ hi

theorem words_blank : ∀ (s cur : List Char), wordsFrom cur (Verif.Feeds.blank s) = wordsFrom cur s := by
  intro s
  unfold Verif.Feeds.blank
  induction s with
  | nil => intro cur; rfl
  | cons c s ih =>
    intro cur
    rw [List.map_cons]
    by_cases hc : c = '\n' ∨ c = '\t' ∨ c = '\r'
    · rw [if_pos hc, words_gap cur (.inl rfl), words_gap cur (.inr hc), ih]
    · rw [if_neg hc]
      by_cases hs : c = ' '
      · rw [words_gap cur (.inl hs), words_gap cur (.inl hs), ih]
      · have : ¬isGap c := fun h => h.elim hs hc
        rw [words_char cur this, words_char cur this, ih]

theorem words_squeeze : ∀ (s : List Char), (∀ cur, wordsFrom cur (squeeze false s) = wordsFrom cur s) ∧ wordsFrom [] (squeeze true s) = wordsFrom [] s := by
  intro s
  induction s with
  | nil => exact ⟨fun _ => rfl, rfl⟩
  | cons c s ih =>
    have h1 : ∀ cur, wordsFrom cur (squeeze false (c :: s)) = wordsFrom cur (c :: s) := by
      intro cur
      rw [squeeze]
      by_cases hs : c = ' '
      · rw [words_gap cur (.inl hs), words_gap cur (.inl hs), hs]
        rw [show ((' ' : Char) == ' ') = true from rfl, ih.2]
      · rw [show (c == ' ') = false from by simpa using hs]
        exact words_after [c] cur _ _ ih.1
    refine ⟨h1, ?_⟩
    rw [squeeze]
    by_cases hs : c = ' '
    · rw [if_neg (by simpa using hs), ih.2, hs, words_gap [] (.inl rfl)]
      rfl
    · rw [if_pos hs]
      exact words_after [c] [] _ _ ih.1

/-- **C101** (texts): of a document of text and tags, each on a line, the words that are printed are those of the text, with a dash for each tag -/
theorem C101_words (ps : List Piece) (h : ∀ p ∈ ps, p.Good) : words (cleaned (ps.flatMap Piece.source)) = words (ps.flatMap Piece.seen) := by
  unfold words cleaned
  rw [(words_squeeze _).1, words_blank, words_untag ps h]

theorem squeeze_mem : ∀ (s : List Char) (b : Bool) (c : Char), c ∈ squeeze b s → c ∈ s := by
  intro s
  induction s with
  | nil => intro b c h; cases b <;> cases h
  | cons x s ih =>
    intro b c h
    cases b with
    | true =>
      rw [squeeze] at h
      split at h
      · rcases List.mem_cons.1 h with rfl | h
        · simp
        · exact List.mem_cons_of_mem _ (ih _ _ h)
      · exact List.mem_cons_of_mem _ (ih _ _ h)
    | false =>
      rw [squeeze] at h
      rcases List.mem_cons.1 h with rfl | h
      · simp
      · exact List.mem_cons_of_mem _ (ih _ _ h)

theorem squeeze_apart : ∀ (s : List Char) (b : Bool) (x y : List Char), squeeze b s ≠ x ++ ' ' :: ' ' :: y ∧ (b = true → squeeze b s ≠ ' ' :: y) := by
  intro s
  induction s with
  | nil => intro b x y; cases b <;> simp [squeeze]
  | cons c s ih =>
    intro b x y
    have step : ∀ b', (b' = true ↔ c = ' ') → c :: squeeze b' s ≠ x ++ ' ' :: ' ' :: y := by
      intro b' hb e
      cases x with
      | nil =>
        rw [List.nil_append, List.cons.injEq] at e
        exact (ih b' [] y).2 (hb.2 e.1) e.2
      | cons z x =>
        rw [List.cons_append, List.cons.injEq] at e
        exact (ih b' x y).1 e.2
    cases b with
    | true =>
      rw [squeeze]
      by_cases hc : c ≠ ' '
      · rw [if_pos hc]
        refine ⟨step false (by simpa using hc), ?_⟩
        rintro - e
        exact hc (List.cons.inj e).1
      · rw [if_neg hc]
        exact ih true x y
    | false =>
      rw [squeeze]
      refine ⟨step _ (by simp), ?_⟩
      intro h; cases h

/-- **C101** (lines): the text is on one line, with no tab, and never has two blanks together -/
theorem C101_plain (s : List Char) : '\n' ∉ cleaned s ∧ '\t' ∉ cleaned s ∧ '\r' ∉ cleaned s ∧ ∀ x y, cleaned s ≠ x ++ ' ' :: ' ' :: y := by
  have hno : ∀ c, c = '\n' ∨ c = '\t' ∨ c = '\r' → c ∉ cleaned s := by
    intro c hc h
    have := squeeze_mem _ _ _ h
    unfold Verif.Feeds.blank at this
    obtain ⟨d, -, e⟩ := List.mem_map.1 this
    split at e
    · rw [← e] at hc; revert hc; decide
    · rename_i hn
      rw [e] at hn
      exact hn hc
  exact ⟨hno _ (.inl rfl), hno _ (.inr (.inl rfl)), hno _ (.inr (.inr rfl)), fun x y => (squeeze_apart _ _ x y).1⟩

/-- **A `<` that is no tag takes the rest of its line with it** -/
theorem C101_less (a b rest : List Char) (ha : '<' ∉ a) (hb : '>' ∉ b) (hb' : '\n' ∉ b) : words (cleaned (a ++ '<' :: (b ++ '\n' :: rest))) = words (a ++ '-' :: '\n' :: untag false rest) := by
  have key : ∀ (t : List Char), '>' ∉ t → '\n' ∉ t → untag true (t ++ '\n' :: rest) = List.replicate t.length ' ' ++ '\n' :: untag false rest := by
    intro t
    induction t with
    | nil => intro _ _; simp [untag]
    | cons c t ih =>
      intro h1 h2
      simp only [List.mem_cons, not_or] at h1 h2
      rw [List.cons_append, untag, if_neg (fun e => h1.1 e.symm), if_neg (fun e => h2.1 e.symm), ih h1.2 h2.2]
      rfl
  unfold words cleaned
  rw [(words_squeeze _).1, words_blank, untag_plain a _ ha, untag, if_pos rfl, key b hb hb']
  apply words_after
  intro cur
  rw [words_char cur (by decide), words_char cur (by decide)]
  cases b with
  | nil => rfl
  | cons c b =>
    rw [List.length_cons, words_spaces, words_gap _ (.inl rfl), words_gap [] (.inr (.inl rfl)), words_gap _ (.inr (.inl rfl))]
    rfl

/-- **C101** (length), in part: a text is shown to its end, or to an address in it.  Missing: at most 2048 tokens. -/
theorem C101_length_partial (p q : Int) (h : p ≤ q) : p ≤ lastShown p q ∧ lastShown p q ≤ q ∧ (q - p + 1 ≤ 2048 → lastShown p q = q) ∧ lastShown p q - p + 1 ≤ 2049 := by
  unfold lastShown
  split <;> omega

/-- **Of a text of more than 2048 tokens, 2049 are shown** -/
theorem C101_one_more (p q : Int) (h : q - p + 1 > 2048) : lastShown p q - p + 1 = 2049 := by
  unfold lastShown
  rw [if_pos h]
  omega

theorem fields_tab : ∀ (f cur t : List Char), '\t' ∉ f → fieldsFrom cur (f ++ '\t' :: t) = (cur ++ f) :: fieldsFrom [] t := by
  intro f
  induction f with
  | nil => intro cur t _; simp [fieldsFrom]
  | cons c f ih =>
    intro cur t h
    simp only [List.mem_cons, not_or] at h
    rw [List.cons_append, fieldsFrom, if_neg (fun e => h.1 e.symm), ih _ _ h.2]
    simp

theorem fields_end : ∀ (f cur : List Char), '\t' ∉ f → fieldsFrom cur f = if cur ++ f = [] then [] else [cur ++ f] := by
  intro f
  induction f with
  | nil => intro cur _; simp [fieldsFrom]
  | cons c f ih =>
    intro cur h
    simp only [List.mem_cons, not_or] at h
    rw [fieldsFrom, if_neg (fun e => h.1 e.symm), ih _ h.2]
    simp

/-- fields with a tab after each -/
def tabbed (fs : List (List Char)) : List Char := fs.flatMap fun f => f ++ ['\t']

theorem fields_tabbed : ∀ (fs : List (List Char)) (t : List Char), (∀ f ∈ fs, '\t' ∉ f) → fieldsFrom [] (tabbed fs ++ t) = fs ++ fieldsFrom [] t := by
  intro fs
  induction fs with
  | nil => intro t _; rfl
  | cons f fs ih =>
    intro t h
    have e : tabbed (f :: fs) ++ t = f ++ '\t' :: (tabbed fs ++ t) := by simp [tabbed]
    rw [e, fields_tab f [] _ (h f (by simp)), ih t (fun x hx => h x (by simp [hx]))]
    rfl

theorem tau_first {before after : List (Int × Int)} {x : Int × Int} {k : Int} (h : ∀ y ∈ before, y.1 < k) (hx : k ≤ x.1) : tauOf (before ++ x :: after) k = x := by
  unfold tauOf
  rw [List.find?_append, List.find?_eq_none.2 (by
    intro y hy
    have := h y hy
    simp only [decide_eq_true_eq]
    omega), List.find?_cons_of_pos (by simpa using hx)]
  rfl

theorem ohr_last {before after : List (Int × Int)} {x : Int × Int} {k : Int} (hk : k ≠ maxAddr) (h : ∀ y ∈ after, k < y.1) (hx : x.1 ≤ k) : ohrOf (before ++ x :: after) k = x := by
  unfold ohrOf
  rw [if_neg hk, List.reverse_append, List.reverse_cons, List.append_assoc, List.find?_append, List.find?_eq_none.2 (by
    intro y hy
    have := h y (by simpa using hy)
    simp only [decide_eq_true_eq]
    omega), List.singleton_append, List.find?_cons_of_pos (by simpa using hx)]
  rfl

/-- **C101** (place): when the name is in a document, and the next document begins after it, the text is from the token after the name to the end of that document, or to one in it -/
theorem C101_place {names docs before after : List (Int × Int)} {name doc : Int × Int} (hn : names.head? = some name) (h0 : 0 ≤ doc.1) (hin : doc.1 ≤ name.1 ∧ name.1 ≤ name.2 ∧ name.2 < doc.2) (hd : doc.2 < maxAddr)
    (hdocs : docs = before ++ doc :: after) (ha : ∀ d ∈ after, name.1 < d.1) : ∃ q, placeOf names docs = some (some (name.2 + 1, q)) ∧ name.2 + 1 ≤ q ∧ q ≤ doc.2 ∧ (doc.2 - name.2 ≤ 2048 → q = doc.2) := by
  cases names with
  | nil => cases hn
  | cons n names =>
    injection hn with hn
    subst hn hdocs
    have e1 : tauOf (n :: names) 0 = n := tau_first (before := []) (by simp) (by omega)
    have e2 : ohrOf (before ++ doc :: after) n.1 = doc := ohr_last (by omega) ha hin.1
    refine ⟨lastShown (n.2 + 1) doc.2, ?_, ?_⟩
    · unfold placeOf
      simp only [e1, e2]
      rw [if_neg (by omega), if_neg (by omega)]
    · unfold lastShown
      split <;> omega

/-- **A name that is nowhere is undefined behaviour**, whatever the documents: the end of the addresses passes for a document -/
theorem C101_nowhere (docs : List (Int × Int)) : placeOf [] docs = none := by
  unfold placeOf tauOf ohrOf
  simp only [List.find?_nil, Option.getD_none, if_true]
  rw [if_neg (by decide), if_pos (by decide)]

section
variable (namesOf : List Char → List (Int × Int)) (docs : List (Int × Int)) (translate : Int → Int → List Char)

/-- **C101** (list): a line of three fields or more, with tabs between them, gives one line, whose fields are these and then the text of the document that the third one names -/
theorem C101_listed (fs : List (List Char)) (last name : List Char) (p q : Int) (hf : ∀ f ∈ fs, '\t' ∉ f) (hl : '\t' ∉ last) (hl0 : last ≠ []) (hn : (fs ++ [last])[2]? = some name)
    (ht : placeOf (namesOf name) docs = some (some (p, q))) (hc : cleaned (translate p q) ≠ []) :
    ∃ out, listed namesOf docs translate (fs.flatMap (fun f => f ++ ['\t']) ++ last) = some (some (out ++ ['\n'])) ∧ fieldsFrom [] out = fs ++ [last, cleaned (translate p q)] := by
  have e1 : fieldsFrom [] (tabbed fs ++ last) = fs ++ [last] := by
    rw [fields_tabbed fs last hf, fields_end last [] hl, if_neg (by simpa using hl0)]
    rfl
  refine ⟨tabbed (fs ++ [last]) ++ cleaned (translate p q), ?_, ?_⟩
  · unfold listed
    rw [show fs.flatMap (fun f => f ++ ['\t']) = tabbed fs from rfl, e1, hn]
    simp only [ht]
    rfl
  · rw [fields_tabbed _ _ (by
      intro f h
      rcases List.mem_append.1 h with h | h
      · exact hf f h
      · rw [List.mem_singleton.1 h]; exact hl), fields_end _ [] (C101_plain _).2.1, if_neg (by simpa using hc)]
    simp

/-- **C101** (outside): a name before every document gives no line, and the program goes on -/
theorem C101_outside (fs : List (List Char)) (last name : List Char) (n : Int × Int) (hf : ∀ f ∈ fs, '\t' ∉ f) (hl : '\t' ∉ last) (hl0 : last ≠ []) (hn : (fs ++ [last])[2]? = some name)
    (h1 : (namesOf name).head? = some n) (h2 : 0 ≤ n.1 ∧ n.1 < maxAddr) (h3 : ∀ d ∈ docs, n.1 < d.1) : listed namesOf docs translate (fs.flatMap (fun f => f ++ ['\t']) ++ last) = some none := by
  have e1 : fieldsFrom [] (tabbed fs ++ last) = fs ++ [last] := by
    rw [fields_tabbed fs last hf, fields_end last [] hl, if_neg (by simpa using hl0)]
    rfl
  have e2 : placeOf (namesOf name) docs = some none := by
    generalize namesOf name = names at h1
    cases names with
    | nil => cases h1
    | cons m names =>
      injection h1 with h1
      subst h1
      have e : tauOf (m :: names) 0 = m := tau_first (before := []) (by simp) h2.1
      have e' : ohrOf docs m.1 = (minAddr, minAddr) := by
        unfold ohrOf
        rw [if_neg (by omega), List.find?_eq_none.2 (by
          intro d hd
          have := h3 d (by simpa using hd)
          simp only [decide_eq_true_eq]
          omega)]
        rfl
      unfold placeOf
      simp only [e, e']
      rw [if_pos (by decide)]
  unfold listed
  rw [show fs.flatMap (fun f => f ++ ['\t']) = tabbed fs from rfl, e1, hn]
  simp only [e2]

/-- and that line is one line -/
theorem C101_one_line (line out : List Char) (hl : '\n' ∉ line) (h : listed namesOf docs translate line = some (some out)) : ∃ b, out = b ++ ['\n'] ∧ '\n' ∉ b := by
  have key : ∀ (t cur : List Char), '\n' ∉ t → '\n' ∉ cur → ∀ f ∈ fieldsFrom cur t, '\n' ∉ f := by
    intro t
    induction t with
    | nil =>
      intro cur _ hc f hf
      rw [fieldsFrom] at hf
      split at hf
      · cases hf
      · rw [List.mem_singleton.1 hf]; exact hc
    | cons c t ih =>
      intro cur ht hc f hf
      simp only [List.mem_cons, not_or] at ht
      rw [fieldsFrom] at hf
      split at hf
      · rcases List.mem_cons.1 hf with rfl | hf
        · exact hc
        · exact ih [] ht.2 (by simp) f hf
      · exact ih _ ht.2 (by simp [hc, ht.1]) f hf
  unfold listed at h
  split at h
  · cases h
  · split at h
    · cases h
    · cases h
    · rename_i p q _
      injection h with h
      injection h with h
      refine ⟨_, h.symm, ?_⟩
      intro hm
      rcases List.mem_append.1 hm with hm | hm
      · obtain ⟨f, hf, hm⟩ := List.mem_flatMap.1 hm
        rcases List.mem_append.1 hm with hm | hm
        · exact key line [] hl (by simp) f hf hm
        · revert hm; decide
      · exact (C101_plain _).1 hm

/-- **A line with fewer than three fields is undefined behaviour** -/
theorem C101_two_fields (a b : List Char) (ha : '\t' ∉ a) (hb : '\t' ∉ b) : listed namesOf docs translate (a ++ '\t' :: b) = none := by
  unfold listed
  rw [fields_tab a [] b ha, fields_end b [] hb]
  split <;> rename_i h
  · rfl
  · split at h <;> cases h

end

/-! ### examples -/

example : Worded List.length ['D', '1'] ∧ Worded List.length ['\t', 'x'] := by unfold Worded; decide
example : (tsvFiles List.length [some ['D', '1', '\t', 'x', '\n'], none] ⟨0, [], []⟩).1 = .refused := by decide +kernel
example : listed (fun n => if n = ['c'] then [(11, 11)] else []) [(0, 9), (10, 15)] (fun _ _ => ['x', '\n', 'y']) ['a', '\t', 'b', '\t', 'c'] = some (some ['a', '\t', 'b', '\t', 'c', '\t', 'x', ' ', 'y', '\n']) := by decide +kernel
example : listed (fun _ => [(3, 3)]) [(5, 9)] (fun _ _ => []) ['a', '\t', 'b', '\t', 'c'] = some none := C101_outside (fun _ => [(3, 3)]) [(5, 9)] _ [['a'], ['b']] ['c'] ['c'] (3, 3) (by decide) (by decide) (by decide) rfl rfl (by decide) (by decide)
example : placeOf [(11, 11)] [(0, 9), (10, 15), (16, 30)] = some (some (12, 15)) := by decide +kernel

example : dump (fun _ => true) [['['], ['{', '}', ','], ['{', 'a', '}', '\r'], [']']] = some [(['{', '}'], true), (['{', 'a', '}'], true)] := by decide +kernel
example : dump (fun _ => true) [['[', '\r']] = none := C101_no_brace _ [] (by simp) _ (by decide) (by decide) (by decide) (by decide) []
example : ∀ p ∈ [Piece.plain ['a', '\n'], .tag ['P'], .plain ['b', ' ', ' ', 'c']], p.Good := by
  intro p h
  simp only [List.mem_cons, List.not_mem_nil, or_false] at h
  rcases h with rfl | rfl | rfl <;> unfold Piece.Good <;> decide
example : cleaned ['a', '\n', '<', 'P', '>', 'b', ' ', ' ', 'c'] = ['a', ' ', '-', ' ', 'b', ' ', 'c'] := by decide +kernel
example : words ['a', '\n', '-', ' ', 'b', ' ', ' ', 'c'] = [['a'], ['-'], ['b'], ['c']] := by decide +kernel
example : cleaned ['1', '<', '2', '\n', '3'] = ['1', '-', ' ', '3'] := by decide +kernel

end Verif.Props
