import Verif.ExtractTool.Model
import Verif.Judge.Proof
import Verif.Gcl.ParseProof
/-
  C97: each line of a run gives the title and the text of the segment that it names.
-/
namespace Verif.Props
open Verif.ExtractTool

/-! ### strings -/

/-- **C97** (strings): a text in quotes is given without them, with blanks for tabs and ends of lines -/
theorem C97_strip (s : List Char) : strip ('"' :: (s ++ ['"'])) = some (s.map blank) := by
  have hb : blank '"' = '"' := rfl
  simp [strip, hb]

theorem blank_plain (c : Char) : blank c ≠ '\t' ∧ blank c ≠ '\n' ∧ blank c ≠ '\r' := by
  unfold blank
  split
  · decide
  · rename_i h
    simp only [not_or] at h
    exact h

theorem strip_plain {s t : List Char} (h : strip s = some t) : '\t' ∉ t ∧ '\n' ∉ t := by
  have key : ∀ u : List Char, '\t' ∉ u.map blank ∧ '\n' ∉ u.map blank := by
    intro u
    constructor
    · intro hm; obtain ⟨c, -, e⟩ := List.mem_map.1 hm; exact (blank_plain c).1 e
    · intro hm; obtain ⟨c, -, e⟩ := List.mem_map.1 hm; exact (blank_plain c).2.1 e
  unfold strip at h
  by_cases h0 : s = []
  · rw [if_pos h0] at h
    simp only [Option.some.injEq] at h; subst h; simp
  · rw [if_neg h0] at h
    simp only at h
    generalize (if s.head? = some '"' then s.tail else s) = u at h
    by_cases h1 : u.map blank = []
    · rw [if_pos h1] at h
      cases h
    · rw [if_neg h1] at h
      simp only [Option.some.injEq] at h
      subst h
      split
      · exact ⟨fun hm => (key _).1 (List.dropLast_subset _ hm), fun hm => (key _).2 (List.dropLast_subset _ hm)⟩
      · exact key _

/-- **A text that is one quote is undefined**, and no other is -/
theorem C97_lone_quote (s : List Char) : strip s = none ↔ s = ['"'] := by
  constructor
  · intro h
    cases s with
    | nil => simp [strip] at h
    | cons c s =>
      unfold strip at h
      rw [if_neg (by simp)] at h
      simp only [List.head?_cons, Option.some.injEq, List.tail_cons] at h
      by_cases hc : c = '"'
      · rw [if_pos hc] at h
        split at h
        · rename_i he
          rw [List.map_eq_nil_iff] at he
          rw [hc, he]
        · cases h
      · rw [if_neg hc] at h
        rw [if_neg (by simp)] at h
        cases h
  · rintro rfl
    decide

/-! ### titles and segments -/

/-- **C97** (own title): what is taken for an item is the first title in the item, when there is one, and never one of another item; so for segments -/
theorem C97_within {l : List Interval} (h : Ordered l) (item : Interval) (x : Interval) :
    within l item = some x ↔ x ∈ l ∧ inside x item = true ∧ ∀ y ∈ l, inside y item = true → x.1 ≤ y.1 := by
  unfold within
  cases hf : l.find? fun i => decide (item.1 ≤ i.1) with
  | none =>
    simp only
    constructor
    · intro h; cases h
    · rintro ⟨h1, h2, -⟩
      rw [List.find?_eq_none] at hf
      unfold inside at h2
      simp only [Bool.and_eq_true, decide_eq_true_eq] at h2
      exact absurd (by simpa using h2.1) (hf x h1)
  | some i =>
    simp only
    obtain ⟨hp, a, b, rfl, ha⟩ := List.find?_eq_some_iff_append.1 hf
    simp only [decide_eq_true_eq] at hp
    have hord := List.pairwise_append.1 h
    have hi := List.pairwise_cons.1 hord.2.1
    -- all that are inside come from `i` on
    have hfrom : ∀ y ∈ a ++ i :: b, inside y item = true → i.1 ≤ y.1 ∧ i.2 ≤ y.2 := by
      intro y hy hin
      unfold inside at hin
      simp only [Bool.and_eq_true, decide_eq_true_eq] at hin
      rcases List.mem_append.1 hy with hy | hy
      · have := ha y hy
        simp only [Bool.not_eq_true', decide_eq_false_iff_not] at this
        exact absurd hin.1 this
      · rcases List.mem_cons.1 hy with e | hy
        · rw [e]; exact ⟨Int.le_refl _, Int.le_refl _⟩
        · have := hi.1 y hy; exact ⟨by omega, by omega⟩
    by_cases hc : i.2 > item.2
    · rw [if_pos hc]
      constructor
      · intro h; cases h
      · rintro ⟨h1, h2, -⟩
        have := hfrom x h1 h2
        unfold inside at h2
        simp only [Bool.and_eq_true, decide_eq_true_eq] at h2
        omega
    · rw [if_neg hc]
      have hin : inside i item = true := by
        unfold inside
        simp only [Bool.and_eq_true, decide_eq_true_eq]
        omega
      constructor
      · intro e
        simp only [Option.some.injEq] at e
        subst e
        exact ⟨by simp, hin, fun y hy hy' => (hfrom y hy hy').1⟩
      · rintro ⟨h1, h2, h3⟩
        have h4 := (hfrom x h1 h2).1
        have h5 := h3 i (by simp) hin
        rcases List.mem_append.1 h1 with hx | hx
        · have := (hord.2.2 x hx i (by simp)).1
          omega
        · rcases List.mem_cons.1 hx with e | hx
          · rw [e]
          · have := hi.1 x hx
            omega

/-- **C97** (passage): with a title and a segment in quotes, the title, a full stop and the text -/
theorem C97_passage (c : Collection) (item t s : Interval) (ht : within c.titles item = some t) (hs : within c.segments item = some s) (title text : List Char)
    (h1 : c.translate t.1 t.2 = '"' :: (title ++ ['"'])) (h2 : c.translate s.1 s.2 = '"' :: (text ++ ['"'])) :
    passage c item = some ((if title = [] then [] else title.map blank ++ ['.', ' ']) ++ text.map blank) := by
  unfold passage
  simp only [ht, hs, h1, h2, C97_strip]
  cases title <;> simp

/-- **C97** (passage): without a title, the text -/
theorem C97_untitled (c : Collection) (item s : Interval) (ht : within c.titles item = none) (hs : within c.segments item = some s) (text : List Char)
    (h2 : c.translate s.1 s.2 = '"' :: (text ++ ['"'])) : passage c item = some (text.map blank) := by
  unfold passage
  simp only [ht, hs, h2, C97_strip]
  simp

/-- **C97** (passage): without a segment, the title; and nothing without both -/
theorem C97_no_segment (c : Collection) (item : Interval) (hs : within c.segments item = none) :
    (∀ t title, within c.titles item = some t → c.translate t.1 t.2 = '"' :: (title ++ ['"']) → passage c item = some (title.map blank)) ∧
      (within c.titles item = none → passage c item = some []) := by
  constructor
  · intro t title ht h1
    unfold passage
    simp only [ht, hs, h1, C97_strip]
  · intro ht
    unfold passage
    simp only [ht, hs]

theorem passage_plain {c : Collection} {item : Interval} {p : List Char} (h : passage c item = some p) : '\t' ∉ p ∧ '\n' ∉ p := by
  unfold passage at h
  have key : ∀ title, (match within c.titles item with | none => some [] | some t => strip (c.translate t.1 t.2)) = some title → '\t' ∉ title ∧ '\n' ∉ title := by
    intro title ht
    split at ht
    · simp only [Option.some.injEq] at ht; subst ht; simp
    · exact strip_plain ht
  split at h
  · cases h
  · rename_i title ht
    have kt := key title ht
    split at h
    · simp only [Option.some.injEq] at h; subst h; exact kt
    · rename_i s hs
      cases hst : strip (c.translate s.1 s.2) with
      | none => rw [hst] at h; cases h
      | some text =>
        rw [hst] at h
        simp only [Option.some.injEq] at h
        subst h
        have kx := strip_plain hst
        split
        · simp [kt.1, kt.2, kx.1, kx.2]
        · simp [kt.1, kt.2, kx.1, kx.2]

/-! ### lines -/

theorem fields_joined : ∀ (ws : List (List Char)) (w : List Char), (∀ x ∈ w :: ws, Word x) → ∀ first run : Bool, Verif.Judge.fieldsFrom first run [] (joined (w :: ws)) = w :: ws := by
  intro ws
  induction ws with
  | nil =>
    intro w h first run
    obtain ⟨h0, h1⟩ := h w (by simp)
    have := Verif.Judge.fieldsFrom_text h1 first run [] [] h0
    rw [List.append_nil, List.nil_append] at this
    rw [joined, this, Verif.Judge.fieldsFrom, if_pos (.inr h0)]
  | cons v ws ih =>
    intro w h first run
    obtain ⟨h0, h1⟩ := h w (by simp)
    rw [joined, Verif.Judge.fieldsFrom_text h1 first run [] _ h0, List.nil_append]
    have := Verif.Judge.fieldsFrom_blank (b := [' ']) (by simp [Verif.Paths.isSpace]) (by simp) first w (joined (v :: ws))
    rw [List.singleton_append] at this
    rw [this, ih v (fun x hx => h x (by simp [hx]))]

theorem joined_last : ∀ (ws : List (List Char)) (w : List Char), (∀ x ∈ w :: ws, Word x) → ∃ a c, joined (w :: ws) = a ++ [c] ∧ Verif.Paths.isSpace c = false := by
  intro ws
  induction ws with
  | nil =>
    intro w h
    obtain ⟨h0, h1⟩ := h w (by simp)
    refine ⟨w.dropLast, w.getLast h0, (List.dropLast_concat_getLast h0).symm, h1 _ (List.getLast_mem h0)⟩
  | cons v ws ih =>
    intro w h
    obtain ⟨a, c, e, hc⟩ := ih v (fun x hx => h x (by simp [hx]))
    exact ⟨w ++ ' ' :: a, c, by rw [joined, e]; simp, hc⟩

theorem split_joined (ws : List (List Char)) (w : List Char) (h : ∀ x ∈ w :: ws, Word x) : splitRe (joined (w :: ws)) = w :: ws := by
  obtain ⟨a, c, e, hc⟩ := joined_last ws w h
  have hn : (c == '\n' || c == '\r') = false := by
    cases hx : (c == '\n' || c == '\r') with
    | false => rfl
    | true =>
      simp only [Bool.or_eq_true, beq_iff_eq] at hx
      rcases hx with rfl | rfl <;> exact absurd hc (by decide)
  unfold splitRe
  have : ((joined (w :: ws)).reverse.dropWhile (fun c => c == '\n' || c == '\r')).reverse = joined (w :: ws) := by
    rw [e, List.reverse_append, List.reverse_singleton, List.singleton_append, List.dropWhile_cons_of_neg (by simp [hn])]
    simp
  rw [this]
  exact fields_joined ws w h true false

theorem line_fields {l : Line} (h : l.Good) : (splitRe l.text).length ≥ 2 ∧ docnoOf (splitRe l.text) = l.docno ∧ (splitRe l.text).getD 0 [] = l.topic := by
  obtain ⟨h1, h2, h3⟩ := h
  unfold Line.text
  cases hf : l.full with
  | none =>
    simp only
    rw [split_joined [l.docno] l.topic (by simp only [List.mem_cons, List.not_mem_nil, or_false]; rintro x (rfl | rfl) <;> assumption)]
    simp [docnoOf]
  | some f =>
    simp only
    obtain ⟨h4, h5⟩ := h3 f (by rw [hf]; rfl)
    rw [split_joined (f.1 :: l.docno :: f.2) l.topic (by
      intro x hx
      simp only [List.mem_cons] at hx
      rcases hx with rfl | rfl | rfl | hx
      · exact h1
      · exact h4
      · exact h2
      · exact h5 x hx)]
    simp [docnoOf]

theorem scan_plain : ∀ (body : List Char), (∀ c ∈ body, c ≠ '"' ∧ c ≠ '\\' ∧ c ≠ '\x00') → Verif.Gcl.scanQ '"' false (body ++ ['"']) = (body, ['"']) := by
  intro body
  induction body with
  | nil => intro _; decide
  | cons c body ih =>
    intro h
    obtain ⟨h1, h2, h3⟩ := h c (by simp)
    rw [List.cons_append, Verif.Gcl.scanQ, if_pos ⟨h3, .inl h1⟩]
    have : (c == '\\') = false := by simpa using h2
    simp only [this, ih (fun x hx => h x (by simp [hx]))]

/-- **C97** (identifiers): one without quotes, backslashes and zeros can be asked for -/
theorem C97_askable (docno : List Char) (h : ∀ c ∈ docno, c ≠ '"' ∧ c ≠ '\\' ∧ c ≠ '\x00') : parses docno = true := by
  have e : queryText docno = Verif.Gcl.toStr (.node .containing [] 0 [.node .term [':'] 0 [], .node .term ('"' :: docno ++ ['"']) 0 []]) := by
    simp [queryText, Verif.Gcl.toStr, Verif.Gcl.toStrL, Verif.Gcl.nameOf]
  obtain ⟨rest, hr⟩ := Verif.Gcl.fromString_toStr (e := .node .containing [] 0 [.node .term [':'] 0 [], .node .term ('"' :: docno ++ ['"']) 0 []]) (by
    simp only [Verif.Gcl.GoodTree, Verif.Gcl.GoodTreeL]
    refine ⟨trivial, trivial, by simp [Verif.Gcl.minArgs], by simp [Verif.Gcl.maxArgs], ⟨?_, trivial, trivial⟩, ⟨?_, trivial, trivial⟩, trivial⟩
    · exact .inl ⟨':', [], rfl, by decide, by decide⟩
    · exact .inr ⟨'"', docno, by decide, rfl, scan_plain docno h⟩)
  unfold parses
  rw [e, hr]

/-- **With an identifier that cannot be asked for a null pointer is used**: one that is a quote, or that ends with a backslash -/
theorem C97_unaskable (c : Collection) (ls : List (List Char)) : run c (['1', ' ', '"'] :: ls) = (.undefined, []) ∧ run c (['1', ' ', 'a', '\\'] :: ls) = (.undefined, []) := by
  constructor
  · have h1 : splitRe ['1', ' ', '"'] = [['1'], ['"']] := by decide
    have h2 : parses ['"'] = false := by decide +kernel
    rw [run]
    simp [h1, docnoOf, h2]
  · have h1 : splitRe ['1', ' ', 'a', '\\'] = [['1'], ['a', '\\']] := by decide
    have h2 : parses ['a', '\\'] = false := by decide +kernel
    rw [run]
    simp [h1, docnoOf, h2]

/-- **C97** (lines): a line with one word ends the program with 1 -/
theorem C97_short_line (c : Collection) (w : List Char) (hw : Word w) (after : List (List Char)) : run c (w :: after) = (.one, []) := by
  have h := split_joined [] w (by simpa using hw)
  rw [joined] at h
  rw [run.eq_def]
  simp [h]

theorem extract_tab_one : ∀ {a : List Char}, '\t' ∉ a → tabFields a = [a] := by
  intro a
  induction a with
  | nil => intro _; rfl
  | cons c a ih =>
    intro h
    simp only [List.mem_cons, not_or] at h
    rw [tabFields, if_neg (fun e => h.1 e.symm), ih h.2]

theorem extract_tab_at : ∀ {a : List Char}, '\t' ∉ a → ∀ b, tabFields (a ++ '\t' :: b) = a :: tabFields b := by
  intro a
  induction a with
  | nil => intro _ b; rw [List.nil_append, tabFields, if_pos rfl]
  | cons c a ih =>
    intro h b
    simp only [List.mem_cons, not_or] at h
    rw [List.cons_append, tabFields, if_neg (fun e => h.1 e.symm), ih h.2]

theorem word_plain {w : List Char} (h : Word w) : '\t' ∉ w ∧ '\n' ∉ w := by
  refine ⟨fun hm => ?_, fun hm => ?_⟩
  · exact absurd (h.2 _ hm) (by decide)
  · exact absurd (h.2 _ hm) (by decide)

/-- one line of the input and what it prints -/
theorem run_line {c : Collection} {l : Line} (hg : l.Good) (hp : parses l.docno = true) {item : Interval} (hi : findItem c l.docno = some item) {p : List Char} (hpa : passage c item = some p) (ls : List (List Char)) :
    run c (l.text :: ls) = ((run c ls).1, (if p = [] then [] else l.topic ++ '\t' :: (l.docno ++ '\t' :: (p ++ ['\n']))) ++ (run c ls).2) := by
  obtain ⟨h1, h2, h3⟩ := line_fields hg
  rw [run]
  simp only [h2, h3]
  rw [if_neg (by omega), if_neg (by simp [hp]), hi]
  simp only [hpa]

/-- **C97**: when all items are found, the program ends with 0, and what it prints is, line by line and at the tabs, the topic, the identifier and the passage of the lines whose item has one, in order -/
theorem C97_run (c : Collection) : ∀ (ls : List Line), (∀ l ∈ ls, l.Good ∧ parses l.docno = true) → ∀ (item : List Char → Interval) (text : List Char → List Char),
    (∀ l ∈ ls, findItem c l.docno = some (item l.docno) ∧ passage c (item l.docno) = some (text l.docno)) →
    (run c (ls.map Line.text)).1 = .zero ∧
      (Verif.Judge.lines (run c (ls.map Line.text)).2).map tabFields = (ls.filter fun l => text l.docno ≠ []).map fun l => [l.topic, l.docno, text l.docno] := by
  intro ls
  induction ls with
  | nil => intro _ _ _ _; exact ⟨rfl, rfl⟩
  | cons l ls ih =>
    intro hg item text h
    obtain ⟨g1, g2⟩ := hg l (by simp)
    obtain ⟨h1, h2⟩ := h l (by simp)
    obtain ⟨i1, i2⟩ := ih (fun x hx => hg x (by simp [hx])) item text (fun x hx => h x (by simp [hx]))
    rw [List.map_cons, run_line g1 g2 h1 h2]
    refine ⟨i1, ?_⟩
    simp only
    by_cases hn : text l.docno = []
    · rw [if_pos hn, List.nil_append, i2, List.filter_cons_of_neg (by simpa using hn)]
    · rw [if_neg hn, List.filter_cons_of_pos (by simpa using hn), List.map_cons]
      obtain ⟨t1, t2⟩ := word_plain g1.1
      obtain ⟨d1, d2⟩ := word_plain g1.2.1
      obtain ⟨p1, p2⟩ := passage_plain h2
      have e : ∀ rest : List Char, (l.topic ++ '\t' :: (l.docno ++ '\t' :: (text l.docno ++ ['\n']))) ++ rest = (l.topic ++ '\t' :: (l.docno ++ '\t' :: text l.docno)) ++ '\n' :: rest := by
        intro rest; simp
      rw [e, Verif.Judge.lines_cons (by simp only [List.mem_append, List.mem_cons, not_or]; exact ⟨t2, by decide, d2, by decide, p2⟩), List.map_cons, extract_tab_at t1, extract_tab_at d1, extract_tab_one p1, i2]

/-- **C97** (not found): an item that is not found ends the program with 1, after the output for the lines before it and without looking at those after it -/
theorem C97_not_found (c : Collection) (ls : List Line) (hg : ∀ l ∈ ls, l.Good ∧ parses l.docno = true) (hf : ∀ l ∈ ls, ∃ item p, findItem c l.docno = some item ∧ passage c item = some p)
    (l : Line) (hl : l.Good) (hp : parses l.docno = true) (hn : findItem c l.docno = none) (after : List (List Char)) :
    run c (ls.map Line.text ++ l.text :: after) = (.one, (run c (ls.map Line.text)).2) := by
  induction ls with
  | nil =>
    obtain ⟨h1, h2, h3⟩ := line_fields hl
    have e : run c (([] : List Line).map Line.text) = (.zero, []) := rfl
    rw [e, List.map_nil, List.nil_append, run.eq_def]
    simp only [h2]
    rw [if_neg (by omega), if_neg (by simp [hp]), hn]
  | cons k ls ih =>
    obtain ⟨item, p, h1, h2⟩ := hf k (by simp)
    obtain ⟨g1, g2⟩ := hg k (by simp)
    rw [List.map_cons, List.cons_append, run_line g1 g2 h1 h2, run_line g1 g2 h1 h2, ih (fun x hx => hg x (by simp [hx])) (fun x hx => hf x (by simp [hx]))]

/-- **C97** (items), in part: the item in which an identifier is found is the first one that has it anywhere in it; so it is the right one when no item before it mentions it.
Otherwise it is another: `C97_other`. -/
theorem C97_find_partial (c : Collection) (docno : List Char) {before after : List Interval} {item : Interval} (hc : c.items = before ++ item :: after) (h0 : 0 ≤ item.1)
    (hi : ∃ o ∈ c.occurs docno, inside o item = true) (hb : ∀ x ∈ before, ∀ o ∈ c.occurs docno, inside o x = false) : findItem c docno = some item := by
  unfold findItem
  have h1 : before.find? (fun i => decide (0 ≤ i.1) && (c.occurs docno).any fun o => inside o i) = none := by
    rw [List.find?_eq_none]
    intro x hx
    simp only [Bool.and_eq_true, List.any_eq_true, not_and, not_exists]
    intro _ o ho hin
    rw [hb x hx o ho] at hin
    exact Bool.noConfusion hin
  have h2 : (decide (0 ≤ item.1) && (c.occurs docno).any fun o => inside o item) = true := by
    obtain ⟨o, ho, hin⟩ := hi
    simp only [Bool.and_eq_true, decide_eq_true_eq, List.any_eq_true]
    exact ⟨h0, o, ho, hin⟩
  rw [hc, List.find?_append, h1, Option.none_or, List.find?_cons_of_pos (p := fun i : Interval => decide (0 ≤ i.1) && (c.occurs docno).any fun o => inside o i) h2]

/-- **An item that mentions the identifier of another one is taken for it** when it comes first -/
theorem C97_other (c : Collection) (docno : List Char) {other : Interval} {rest : List Interval} (hc : c.items = other :: rest) (h0 : 0 ≤ other.1) (hm : ∃ o ∈ c.occurs docno, inside o other = true) :
    findItem c docno = some other :=
  C97_find_partial c docno (before := []) hc h0 hm (by simp)

/-! ### examples -/

/-- two items: `d1` with a title and a segment, and `d2` with a segment -/
def twoItems : Collection where
  items := [(0, 9), (10, 19)]
  titles := [(3, 4)]
  segments := [(6, 8), (13, 15)]
  occurs d := if d = ['d', '1'] then [(1, 1)] else if d = ['d', '2'] then [(11, 11)] else []
  translate p _ := if p = 3 then ['"', 'T', '"'] else if p = 6 then ['"', 'a', '\n', 'b', '"'] else ['"', 'c', '"']

def extractLines : List Line := [⟨['7'], ['d', '1'], none⟩, ⟨['8'], ['d', '2'], some (['Q', '0'], [['1'], ['2']])⟩]

example : run twoItems (extractLines.map Line.text) =
    (.zero, ['7', '\t', 'd', '1', '\t', 'T', '.', ' ', 'a', ' ', 'b', '\n', '8', '\t', 'd', '2', '\t', 'c', '\n']) := by decide +kernel
example : within twoItems.titles (0, 9) = some (3, 4) ∧ within twoItems.titles (10, 19) = none := by decide
example : Ordered twoItems.segments := by unfold Ordered twoItems; decide
theorem extractLines_good : ∀ l ∈ extractLines, l.Good ∧ parses l.docno = true := by
  intro l hl
  simp only [extractLines, List.mem_cons, List.not_mem_nil, or_false] at hl
  rcases hl with rfl | rfl
  · exact ⟨⟨by unfold Word; decide, by unfold Word; decide, by simp⟩, C97_askable _ (by decide)⟩
  · refine ⟨⟨by unfold Word; decide, by unfold Word; decide, ?_⟩, C97_askable _ (by decide)⟩
    intro f hf
    cases hf
    unfold Word
    decide
example := C97_run twoItems extractLines extractLines_good (fun d => if d = ['d', '1'] then (0, 9) else (10, 19)) (fun d => if d = ['d', '1'] then ['T', '.', ' ', 'a', ' ', 'b'] else ['c']) (by decide)
-- the third is not there
example : run twoItems (extractLines.map Line.text ++ [['9', ' ', 'd', '3'], ['7', ' ', 'd', '1']]) =
    (.one, ['7', '\t', 'd', '1', '\t', 'T', '.', ' ', 'a', ' ', 'b', '\n', '8', '\t', 'd', '2', '\t', 'c', '\n']) := by decide +kernel
end Verif.Props
