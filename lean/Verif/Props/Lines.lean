import Verif.Collect.Lines
/-
  C90: a collection with a document on each line gives the index every document, with its marks over exactly its texts, and a
  line that is not a document is reported.
-/
namespace Verif.Props
open Verif.Collect.Lines
open Verif.Judge (lines lines_cons)

section
variable (tk : Text → Nat)

/-! ### building -/

theorem textsOf_append : ∀ a b : List Part, textsOf (a ++ b) = textsOf a ++ textsOf b := by
  intro a b
  induction a with
  | nil => rfl
  | cons p a ih => simp [textsOf, ih]

theorem notesOf_append : ∀ (a b : List Part) (n : Nat), notesOf tk n (a ++ b) = notesOf tk n a ++ notesOf tk (n + ((textsOf a).map tk).sum) b := by
  intro a b
  induction a with
  | nil => intro n; simp [notesOf, textsOf]
  | cons p a ih =>
    intro n
    simp only [List.cons_append, notesOf, ih, textsOf, List.map_append, List.sum_append, Part.size, List.append_assoc, Nat.add_assoc]

theorem with_nil (s : Built) : s.plus tk [] = s := by
  cases s; simp [Built.plus, textsOf, notesOf]

theorem with_append (s : Built) (a b : List Part) : (s.plus tk a).plus tk b = s.plus tk (a ++ b) := by
  simp [Built.plus, textsOf_append, notesOf_append, Nat.add_assoc]

theorem with_text (s : Built) {t : Text} (h : Worded tk t) :
    addText tk t s = (s.plus tk [.text t], s.next, s.next + tk t - 1) := by
  obtain ⟨h1, h2⟩ := h
  have : tk t ≠ 0 := by omega
  simp [addText, h1, this, Built.plus, textsOf, notesOf, Part.texts, Part.notes]

theorem with_mark (s : Built) (tag : Text) (ps : List Part) (h : 0 < ((textsOf ps).map tk).sum) :
    annotate tag s.next ((s.plus tk ps).next - 1) (s.plus tk ps) = s.plus tk [.mark tag ps] := by
  have : s.next ≤ s.next + ((textsOf ps).map tk).sum - 1 := by omega
  simp [annotate, Built.plus, textsOf, notesOf, Part.texts, Part.notes, this]

theorem with_next (s : Built) (ps : List Part) : (s.plus tk ps).next = s.next + ((textsOf ps).map tk).sum := rfl

/-- a text with a mark over it -/
theorem marked_text (s : Built) (tag : Text) {t : Text} (h : Worded tk t) :
    annotate tag s.next (s.next + tk t - 1) (s.plus tk [.text t]) = s.plus tk [.mark tag [.text t]] := by
  have := with_mark tk s tag [.text t] (by simpa [textsOf, Part.texts] using h.2)
  simpa [with_next, textsOf, Part.texts] using this

/-! ### lines -/

theorem run_all {step : Text → Built → Ends × Built} {f : α → Text} {g : α → Part} : ∀ (xs : List α) (s : Built),
    (∀ x ∈ xs, ∀ s, step (f x) s = (.done, s.plus tk [g x])) → run step (xs.map f) s = (.done, s.plus tk (xs.map g)) := by
  intro xs
  induction xs with
  | nil => intro s _; simp [run, with_nil]
  | cons x xs ih =>
    intro s h
    simp only [List.map_cons, run]
    rw [h x (by simp)]
    simp only [if_true]
    rw [ih _ fun y hy => h y (by simp [hy]), with_append]
    rfl

theorem lines_file : ∀ ls : List Text, (∀ l ∈ ls, '\n' ∉ l) → lines (fileOf ls) = ls := by
  intro ls
  induction ls with
  | nil => intro _; rfl
  | cons l ls ih =>
    intro h
    have e : fileOf (l :: ls) = l ++ '\n' :: fileOf ls := by simp [fileOf]
    rw [e, lines_cons (h l (by simp)), ih fun x hx => h x (by simp [hx])]

theorem whole_file : ∀ (ls : List Text) (rest : Text), (∀ l ∈ ls, '\n' ∉ l) → '\n' ∉ rest → wholeLines (fileOf ls ++ rest) = ls := by
  have none : ∀ (r cur : Text), '\n' ∉ r → wholeFrom cur r = [] := by
    intro r
    induction r with
    | nil => intro cur _; rfl
    | cons c r ih =>
      intro cur h
      simp only [List.mem_cons, not_or] at h
      simp only [wholeFrom, if_neg (Ne.symm h.1)]
      exact ih _ h.2
  have one : ∀ (l cur rest : Text), '\n' ∉ l → wholeFrom cur (l ++ '\n' :: rest) = (cur ++ l) :: wholeFrom [] rest := by
    intro l
    induction l with
    | nil => intro cur rest _; simp [wholeFrom]
    | cons c l ih =>
      intro cur rest h
      simp only [List.mem_cons, not_or] at h
      simp only [List.cons_append, wholeFrom, if_neg (Ne.symm h.1)]
      rw [ih _ _ h.2]; simp
  intro ls rest h hr
  induction ls with
  | nil => exact none rest [] hr
  | cons l ls ih =>
    have e : fileOf (l :: ls) ++ rest = l ++ '\n' :: (fileOf ls ++ rest) := by simp [fileOf]
    unfold wholeLines at ih ⊢
    rw [e, one _ _ _ (h l (by simp)), ih fun x hx => h x (by simp [hx])]
    rfl

/-! ### names and texts -/

/-- a paragraph: a name, and the text -/
def paragraph (name : Text) (ts : List Text) : Part :=
  .mark [':', 'p', 'a', 'r', 'a', 'g', 'r', 'a', 'p', 'h'] (.mark [':', 'p', 'i', 'd'] [.text name] :: ts.map .text)

theorem passage_ok (s : Built) {name t : Text} (hn : Worded tk name) (ht : Worded tk t) :
    passage tk name t s = s.plus tk [paragraph name [t]] := by
  have h0 := hn.2
  simp only [passage, with_text tk s hn]
  rw [marked_text tk s _ hn, with_text tk _ ht, with_append]
  simp only
  have := with_mark tk s [':', 'p', 'a', 'r', 'a', 'g', 'r', 'a', 'p', 'h'] [.mark [':', 'p', 'i', 'd'] [.text name], .text t]
    (by simp [textsOf, Part.texts]; omega)
  have e : (s.plus tk [.mark [':', 'p', 'i', 'd'] [.text name]]).next + tk t - 1 =
      (s.plus tk [.mark [':', 'p', 'i', 'd'] [.text name], .text t]).next - 1 := by
    simp [with_next, textsOf, Part.texts]; omega
  rw [e]
  exact this

theorem at_tab : ∀ (n c : Text), '\t' ∉ n → (n ++ '\t' :: c).takeWhile (· != '\t') = n ∧ (n ++ '\t' :: c).dropWhile (· != '\t') = '\t' :: c := by
  intro n
  induction n with
  | nil => intro c _; simp
  | cons x n ih =>
    intro c h
    simp only [List.mem_cons, not_or] at h
    have : (x != '\t') = true := by simpa using Ne.symm h.1
    simp only [List.cons_append, List.takeWhile_cons, List.dropWhile_cons, this, if_true]
    exact ⟨by rw [(ih c h.2).1], (ih c h.2).2⟩

/-- **C90** (part): a file of names and texts with tabs between them gives a paragraph for each line, in order, with the name
(after `MARCO_`) and the whole text, and marks over exactly these. -/
theorem C90_marco_partial (recs : List (Text × Text)) (s : Built)
    (hl : ∀ r ∈ recs, '\t' ∉ r.1 ∧ '\n' ∉ r.1 ∧ '\n' ∉ r.2)
    (hw : ∀ r ∈ recs, Worded tk (['M', 'A', 'R', 'C', 'O', '_'] ++ r.1) ∧ Worded tk ('\t' :: r.2)) :
    marco tk (fileOf (recs.map fun r => r.1 ++ '\t' :: r.2)) s =
      (.done, s.plus tk (recs.map fun r => paragraph (['M', 'A', 'R', 'C', 'O', '_'] ++ r.1) ['\t' :: r.2])) := by
  unfold marco
  rw [lines_file _ (by
    intro l h
    obtain ⟨r, hr, rfl⟩ := List.mem_map.1 h
    have := hl r hr
    simp [this.2.1, this.2.2])]
  apply run_all
  intro r hr s
  obtain ⟨h1, h2⟩ := at_tab r.1 r.2 (hl r hr).1
  unfold marcoLine
  rw [if_pos (by simp), h1, h2, passage_ok tk s (hw r hr).1 (hw r hr).2]

/-! ### documents -/

variable (parse : Text → Parsed)

theorem look_field (fs : List (Text × Field)) (k : Text) : look (.object fs) k = some ((fs.find? fun x => x.1 == k).elim .null (·.2)) := rfl

/-- the document has this text under this name -/
def Has (fs : List (Text × Field)) (key t : Text) : Prop := (fs.find? fun x => x.1 == key).elim .null (·.2) = .text t

/-- **C90** (part): a file of web pages gives each page, in order, with its text and its address. -/
theorem C90_c4_partial (recs : List (Text × List (Text × Field) × Text × Text)) (s : Built)
    (hl : ∀ r ∈ recs, '\n' ∉ r.1 ∧ parse r.1 = .doc (.object r.2.1) ∧ Has r.2.1 ['t', 'e', 'x', 't'] r.2.2.1 ∧ Has r.2.1 ['u', 'r', 'l'] r.2.2.2)
    (hw : ∀ r ∈ recs, Worded tk r.2.2.1 ∧ Worded tk r.2.2.2) :
    c4 tk parse (fileOf (recs.map (·.1))) s = (.done, s.plus tk (recs.map fun r =>
      .mark [':'] [.mark [':', 't', 'e', 'x', 't'] [.text r.2.2.1], .mark [':', 'u', 'r', 'l'] [.text r.2.2.2]])) := by
  unfold c4
  have := whole_file (recs.map (·.1)) [] (by
    intro l h
    obtain ⟨r, hr, rfl⟩ := List.mem_map.1 h
    exact (hl r hr).1) (by simp)
  rw [List.append_nil] at this
  rw [this]
  apply run_all
  intro r hr s
  obtain ⟨-, h1, h2, h3⟩ := hl r hr
  obtain ⟨w1, w2⟩ := hw r hr
  unfold Has at h2 h3
  have p1 := w1.2
  simp only [withDoc, h1, c4Doc, look_field, h2, h3, asText]
  rw [with_text tk s w1]
  simp only
  rw [marked_text tk s _ w1, with_text tk _ w2]
  simp only
  rw [marked_text tk _ _ w2, with_append]
  have m := with_mark tk s [':'] [.mark [':', 't', 'e', 'x', 't'] [.text r.2.2.1], .mark [':', 'u', 'r', 'l'] [.text r.2.2.2]]
    (by simp [textsOf, Part.texts]; omega)
  have e : (s.plus tk [.mark [':', 't', 'e', 'x', 't'] [.text r.2.2.1]]).next + tk r.2.2.2 - 1 =
      (s.plus tk [.mark [':', 't', 'e', 'x', 't'] [.text r.2.2.1], .mark [':', 'u', 'r', 'l'] [.text r.2.2.2]]).next - 1 := by
    simp [with_next, textsOf, Part.texts]; omega
  rw [e]
  exact congrArg _ m

/-- **C90** (part): a file of passages gives each, in order, with its name. -/
theorem C90_msmarco_partial (recs : List (Text × List (Text × Field) × Text × Text)) (s : Built)
    (hl : ∀ r ∈ recs, '\n' ∉ r.1 ∧ parse r.1 = .doc (.object r.2.1) ∧ Has r.2.1 ['p', 'i', 'd'] r.2.2.1 ∧
      Has r.2.1 ['p', 'a', 's', 's', 'a', 'g', 'e'] r.2.2.2)
    (hw : ∀ r ∈ recs, Worded tk r.2.2.1 ∧ Worded tk r.2.2.2) :
    msmarco tk parse (fileOf (recs.map (·.1))) s = (.done, s.plus tk (recs.map fun r => paragraph r.2.2.1 [r.2.2.2])) := by
  unfold msmarco
  have := whole_file (recs.map (·.1)) [] (by
    intro l h
    obtain ⟨r, hr, rfl⟩ := List.mem_map.1 h
    exact (hl r hr).1) (by simp)
  rw [List.append_nil] at this
  rw [this]
  apply run_all
  intro r hr s
  obtain ⟨-, h1, h2, h3⟩ := hl r hr
  obtain ⟨w1, w2⟩ := hw r hr
  unfold Has at h2 h3
  simp only [withDoc, h1, msDoc, look_field, h2, h3, asText, passage_ok tk s w1 w2]

/-- **C90** (part): a file of documents with titles gives each, in order, with its name, its title and its text.  (A title may
have nothing in it.) -/
theorem C90_cast_partial (recs : List (Text × List (Text × Field) × Text × Text × Text)) (s : Built)
    (hl : ∀ r ∈ recs, '\n' ∉ r.1 ∧ parse r.1 = .doc (.object r.2.1) ∧ Has r.2.1 ['i', 'd'] r.2.2.1 ∧
      Has r.2.1 ['t', 'i', 't', 'l', 'e'] r.2.2.2.1 ∧ Has r.2.1 ['c', 'o', 'n', 't', 'e', 'n', 't', 's'] r.2.2.2.2)
    (hw : ∀ r ∈ recs, Worded tk r.2.2.1 ∧ Worded tk r.2.2.2.2) :
    cast22 tk parse (fileOf (recs.map (·.1))) s = (.done, s.plus tk (recs.map fun r =>
      paragraph r.2.2.1 (if r.2.2.2.1 = [] then [r.2.2.2.2] else [r.2.2.2.1, r.2.2.2.2]))) := by
  unfold cast22
  have := whole_file (recs.map (·.1)) [] (by
    intro l h
    obtain ⟨r, hr, rfl⟩ := List.mem_map.1 h
    exact (hl r hr).1) (by simp)
  rw [List.append_nil] at this
  rw [this]
  apply run_all
  intro r hr s
  obtain ⟨-, h1, h2, h3, h4⟩ := hl r hr
  obtain ⟨w1, w2⟩ := hw r hr
  obtain ⟨line, fs, name, title, text⟩ := r
  simp only at *
  unfold Has at h2 h3 h4
  have p1 := w1.2
  -- a title, which may have no words
  have ti : ∀ s : Built, (addText tk title s).1 = s.plus tk (if title = [] then [] else [.text title]) := by
    intro s
    by_cases e : title = []
    · simp [addText, e, with_nil]
    · by_cases z : tk title = 0
      · simp [addText, e, z, Built.plus, textsOf, notesOf, Part.texts, Part.notes]
      · rw [with_text tk s ⟨e, by omega⟩, if_neg e]
  simp only [withDoc, h1, castDoc, look_field, h2, h3, h4, asText]
  rw [with_text tk s w1]
  simp only
  rw [marked_text tk s _ w1, ti, with_append, with_text tk _ w2]
  simp only
  rw [with_append]
  unfold paragraph
  have m := with_mark tk s [':', 'p', 'a', 'r', 'a', 'g', 'r', 'a', 'p', 'h']
    (.mark [':', 'p', 'i', 'd'] [.text name] :: (if title = [] then [text] else [title, text]).map .text)
    (by simp [textsOf, Part.texts]; omega)
  rw [← m]
  by_cases e : title = []
  · subst e
    simp only [if_true, List.append_nil, List.map_cons, List.map_nil, List.cons_append, List.nil_append]
    congr 3
    simp [with_next, textsOf, Part.texts]; omega
  · simp only [e, if_false, List.map_cons, List.map_nil, List.cons_append, List.nil_append]
    congr 3
    simp [with_next, textsOf, Part.texts]; omega

/-! ### articles -/

/-- the texts of an element -/
def pieces (e : List (Text × Value)) : List Text :=
  e.filterMap fun x =>
    if x.1 ∈ [['c', 'o', 'n', 't', 'e', 'n', 't'], ['b', 'l', 'u', 'r', 'b'], ['f', 'u', 'l', 'l', 'c', 'a', 'p', 't', 'i', 'o', 'n']] then
      match x.2 with
      | .text t => some t
      | .number t => some t
      | .other => none
    else none

/-- it has a text under each of the names that stand for texts -/
def Texts (e : List (Text × Value)) : Prop :=
  (∀ x ∈ e, contentKey x.1 = true → ∃ t, x.2 = .text t ∨ x.2 = .number t) ∧ ∀ t ∈ pieces e, t ≠ []

theorem contentKey_iff (k : Text) : contentKey k = true ↔
    k ∈ [['c', 'o', 'n', 't', 'e', 'n', 't'], ['b', 'l', 'u', 'r', 'b'], ['f', 'u', 'l', 'l', 'c', 'a', 'p', 't', 'i', 'o', 'n']] := by
  simp [contentKey, or_assoc]

theorem content_from : ∀ (e : List (Text × Value)) (c : Text), Texts e → c ≠ [] → content e c = c ++ (pieces e).flatMap (' ' :: ·) := by
  intro e
  induction e with
  | nil => intro c _ _; simp [content, pieces]
  | cons x e ih =>
    intro c h hc
    obtain ⟨k, v⟩ := x
    have hr : Texts e := by
      refine ⟨fun y hy => h.1 y (by simp [hy]), fun t ht => h.2 t ?_⟩
      unfold pieces at ht ⊢
      rw [List.filterMap_cons]
      split
      · exact ht
      · exact List.mem_cons_of_mem _ ht
    by_cases hk : contentKey k = true
    · have hm := (contentKey_iff k).1 hk
      obtain ⟨t, ht⟩ := h.1 (k, v) (by simp) hk
      have hp : pieces ((k, v) :: e) = t :: pieces e := by
        unfold pieces
        rcases ht with ht | ht <;> simp only at ht <;> subst ht <;> simp only [List.filterMap_cons, hm, if_true]
      have : content ((k, v) :: e) c = content e (c ++ [' '] ++ t) := by
        rcases ht with ht | ht <;> simp only at ht <;> subst ht <;> simp only [content, hk, if_true, if_neg hc]
      rw [this, ih _ hr (by simp), hp]
      simp
    · have hm := fun z => hk ((contentKey_iff k).2 z)
      have hp : pieces ((k, v) :: e) = pieces e := by
        unfold pieces
        simp only [List.filterMap_cons, if_neg hm]
      have : content ((k, v) :: e) c = content e c := by simp only [content, hk, if_false, Bool.false_eq_true]
      rw [this, ih _ hr hc, hp]

theorem intercalate_flat (t : Text) (ts : List Text) : List.intercalate [' '] (t :: ts) = t ++ ts.flatMap (' ' :: ·) := by
  induction ts generalizing t with
  | nil => simp [List.intercalate]
  | cons u ts ih =>
    have e : List.intercalate [' '] (t :: u :: ts) = t ++ ([' '] ++ List.intercalate [' '] (u :: ts)) := by simp [List.intercalate, List.intersperse]
    rw [e, ih]; simp

theorem content_texts : ∀ (e : List (Text × Value)), Texts e → content e [] = List.intercalate [' '] (pieces e) := by
  intro e
  induction e with
  | nil => intro _; rfl
  | cons x e ih =>
    intro h
    obtain ⟨k, v⟩ := x
    have hr : Texts e := by
      refine ⟨fun y hy => h.1 y (by simp [hy]), fun t ht => h.2 t ?_⟩
      unfold pieces at ht ⊢
      rw [List.filterMap_cons]
      split
      · exact ht
      · exact List.mem_cons_of_mem _ ht
    by_cases hk : contentKey k = true
    · have hm := (contentKey_iff k).1 hk
      obtain ⟨t, ht⟩ := h.1 (k, v) (by simp) hk
      have hp : pieces ((k, v) :: e) = t :: pieces e := by
        unfold pieces
        rcases ht with ht | ht <;> simp only at ht <;> subst ht <;> simp only [List.filterMap_cons, hm, if_true]
      have : content ((k, v) :: e) [] = content e t := by
        rcases ht with ht | ht <;> simp only at ht <;> subst ht <;> simp only [content, hk, if_true, List.nil_append]
      have hne : t ≠ [] := h.2 t (by rw [hp]; simp)
      rw [this, content_from e t hr hne, hp, intercalate_flat]
    · have hm := fun z => hk ((contentKey_iff k).2 z)
      have hp : pieces ((k, v) :: e) = pieces e := by
        unfold pieces
        simp only [List.filterMap_cons, if_neg hm]
      have : content ((k, v) :: e) [] = content e [] := by simp only [content, hk, if_false, Bool.false_eq_true]
      rw [this, ih hr, hp]

/-- an article -/
structure Article where
  id : Text
  title : Option Text
  author : Option Text
  /-- the texts, and whether each is a paragraph -/
  contents : List (Bool × Text)
  url : Option Text

/-- the name of a paragraph -/
def paraName (id : Text) (n : Nat) : Text := ['W', 'A', 'P', 'O', '_'] ++ id ++ '-' :: Nat.toDigits 10 n

/-- the texts of an article: paragraphs are numbered -/
def contentParts (id : Text) : Nat → List (Bool × Text) → List Part
  | _, [] => []
  | n, (true, t) :: rest => paragraph (paraName id n) [t] :: contentParts id (n + 1) rest
  | n, (false, t) :: rest => .text t :: contentParts id n rest

def opt (tag : Text) (o : Option Text) : List Part := o.toList.map fun t => .mark tag [.text t]

def Article.part (a : Article) : Part :=
  .mark [':', 'a', 'r', 't', 'i', 'c', 'l', 'e'] (.mark [':', 'i', 'd'] [.text a.id] ::
    (opt [':', 't', 'i', 't', 'l', 'e'] a.title ++ opt [':', 'a', 'u', 't', 'h', 'o', 'r'] a.author ++ contentParts a.id 1 a.contents ++
      opt [':', 'u', 'r', 'l'] a.url))

/-- a document may have this text under this name -/
def MayHave (fs : List (Text × Field)) (key : Text) (o : Option Text) : Prop :=
  (fs.find? fun x => x.1 == key).elim .null (·.2) = (match o with | none => Field.null | some t => .text t)

/-- the element is marked as a paragraph -/
def Marked (e : List (Text × Value)) : Prop := (['s', 'u', 'b', 't', 'y', 'p', 'e'], Value.text ['p', 'a', 'r', 'a', 'g', 'r', 'a', 'p', 'h']) ∈ e

/-- the elements say these texts; elements without texts are left out -/
inductive Say : List (List (Text × Value)) → List (Bool × Text) → Prop
  | nil : Say [] []
  | mute {e es cs} : Texts e → pieces e = [] → Say es cs → Say (e :: es) cs
  | para {e es cs} : Texts e → pieces e ≠ [] → Marked e → Say es cs → Say (e :: es) ((true, List.intercalate [' '] (pieces e)) :: cs)
  | plain {e es cs} : Texts e → pieces e ≠ [] → ¬ Marked e → Say es cs → Say (e :: es) ((false, List.intercalate [' '] (pieces e)) :: cs)

theorem isPara_iff (e : List (Text × Value)) : isPara e = true ↔ Marked e := by
  unfold isPara Marked
  rw [List.any_eq_true]
  constructor
  · rintro ⟨⟨k, v⟩, hx, h⟩
    cases v with
    | text t => simp at h; rw [h.1, h.2] at hx; exact hx
    | number _ => simp at h
    | other => simp at h
  · intro h
    exact ⟨_, h, by simp⟩

theorem elements_ok (id : Text) : ∀ {es : List (List (Text × Value))} {cs : List (Bool × Text)}, Say es cs →
    ∀ (n : Nat) (s : Built), (∀ c ∈ cs, Worded tk c.2) → (∀ n, Worded tk (paraName id n)) →
    elements tk id es n (s.next - 1) s = (s.plus tk (contentParts id n cs), (s.plus tk (contentParts id n cs)).next - 1) := by
  intro es cs h
  induction h with
  | nil => intro n s _ _; simp [elements, contentParts, with_nil]
  | @mute e es cs ht h0 _ ih =>
    intro n s hw hn
    have : content e [] = [] := by rw [content_texts _ ht, h0]; rfl
    simp only [elements, this, if_true]
    exact ih n s hw hn
  | @para e es cs ht h0 hm _ ih =>
    intro n s hw hn
    have hc := content_texts _ ht
    have w := hw (true, List.intercalate [' '] (pieces e)) (by simp)
    have hne : content e [] ≠ [] := by rw [hc]; exact w.1
    have p := passage_ok tk s (hn n) w
    have pn := hn n
    have q : ∀ s : Built, (addText tk (List.intercalate [' '] (pieces e)) s).2.2 = (addText tk (List.intercalate [' '] (pieces e)) s).1.next - 1 := by
      intro s; rw [with_text tk s w]; simp [with_next, textsOf, Part.texts]
    have an : ∀ tag a b (s : Built), (annotate tag a b s).next = s.next := by intro tag a b s; unfold annotate; split <;> rfl
    simp only [elements, hne, if_false, (isPara_iff e).2 hm, if_true]
    rw [hc]
    have qq : (passage tk (paraName id n) (List.intercalate [' '] (pieces e)) s).next - 1 =
      (addText tk (List.intercalate [' '] (pieces e)) (annotate [':', 'p', 'i', 'd'] (addText tk (paraName id n) s).2.1 (addText tk (paraName id n) s).2.2
        (addText tk (paraName id n) s).1)).2.2 := by
      rw [q]; simp only [passage, an]
    show elements tk id es (n + 1) (addText tk (List.intercalate [' '] (pieces e)) (annotate [':', 'p', 'i', 'd'] (addText tk (paraName id n) s).2.1 (addText tk (paraName id n) s).2.2
        (addText tk (paraName id n) s).1)).2.2 (passage tk (paraName id n) (List.intercalate [' '] (pieces e)) s) = _
    rw [← qq, p, ih (n + 1) _ (fun c hc => hw c (by simp [hc])) hn, with_append]
    rfl
  | @plain e es cs ht h0 hm _ ih =>
    intro n s hw hn
    have hc := content_texts _ ht
    have w := hw (false, List.intercalate [' '] (pieces e)) (by simp)
    have hne : content e [] ≠ [] := by rw [hc]; exact w.1
    have hf : isPara e = false := by
      cases h : isPara e
      · rfl
      · exact absurd ((isPara_iff e).1 h) hm
    simp only [elements, hne, if_false, hf, Bool.false_eq_true]
    rw [hc, with_text tk s w]
    have e1 : s.next + tk (List.intercalate [' '] (pieces e)) - 1 = (s.plus tk [.text (List.intercalate [' '] (pieces e))]).next - 1 := by
      simp [with_next, textsOf, Part.texts]
    simp only
    rw [e1, ih n _ (fun c hc => hw c (by simp [hc])) hn, with_append]
    rfl

theorem maybe_ok (tag : Text) (s : Built) (f : Field) (o : Option Text) (hf : f = (match o with | none => Field.null | some t => .text t))
    (hw : ∀ t ∈ o, Worded tk t) : maybe tk tag f (s.next - 1) s = some (s.plus tk (opt tag o), (s.plus tk (opt tag o)).next - 1) := by
  cases o with
  | none => subst hf; simp [maybe, opt, with_nil]
  | some t =>
    subst hf
    have w := hw t rfl
    simp only [maybe, with_text tk s w, marked_text tk s tag w]
    simp [opt, with_next, textsOf, Part.texts]

/-- **C90** (part): a file of articles gives each article, in order, with its name, title, author, texts and address as far as
it has them, its paragraphs numbered, and marks over exactly these.  (An article without a name is left out.) -/
theorem C90_wapo_partial (recs : List (Text × List (Text × Field) × List (List (Text × Value)) × Article)) (s : Built)
    (hl : ∀ r ∈ recs, '\n' ∉ r.1 ∧ parse r.1 = .doc (.object r.2.1) ∧ Has r.2.1 ['i', 'd'] r.2.2.2.id ∧
      MayHave r.2.1 ['t', 'i', 't', 'l', 'e'] r.2.2.2.title ∧ MayHave r.2.1 ['a', 'u', 't', 'h', 'o', 'r'] r.2.2.2.author ∧
      MayHave r.2.1 ['a', 'r', 't', 'i', 'c', 'l', 'e', '_', 'u', 'r', 'l'] r.2.2.2.url ∧
      (r.2.1.find? fun x => x.1 == ['c', 'o', 'n', 't', 'e', 'n', 't', 's']).elim .null (·.2) = .array r.2.2.1 ∧ Say r.2.2.1 r.2.2.2.contents)
    (hw : ∀ r ∈ recs, Worded tk r.2.2.2.id ∧ (∀ t ∈ r.2.2.2.title, Worded tk t) ∧ (∀ t ∈ r.2.2.2.author, Worded tk t) ∧
      (∀ t ∈ r.2.2.2.url, Worded tk t) ∧ (∀ c ∈ r.2.2.2.contents, Worded tk c.2) ∧ ∀ n, Worded tk (paraName r.2.2.2.id n)) :
    wapo tk parse (fileOf (recs.map (·.1))) s = (.done, s.plus tk (recs.map fun r => r.2.2.2.part)) := by
  unfold wapo
  rw [lines_file _ (by
    intro l h
    obtain ⟨r, hr, rfl⟩ := List.mem_map.1 h
    exact (hl r hr).1)]
  apply run_all
  intro r hr s
  obtain ⟨-, h1, h2, h3, h4, h5, h6, h7⟩ := hl r hr
  obtain ⟨w1, w2, w3, w4, w5, w6⟩ := hw r hr
  obtain ⟨line, fs, es, a⟩ := r
  simp only at *
  unfold Has at h2
  have p1 := w1.2
  simp only [withDoc, h1, wapoDoc, h2, h6]
  rw [with_text tk s w1]
  simp only
  rw [marked_text tk s _ w1]
  have e1 : s.next + tk a.id - 1 = (s.plus tk [.mark [':', 'i', 'd'] [.text a.id]]).next - 1 := by simp [with_next, textsOf, Part.texts]
  rw [e1, maybe_ok tk _ _ _ a.title h3 w2]
  simp only
  rw [maybe_ok tk _ _ _ a.author h4 w3]
  simp only
  rw [elements_ok tk a.id h7 1 _ w5 w6]
  simp only
  rw [maybe_ok tk _ _ _ a.url h5 w4]
  simp only [with_append]
  have m := with_mark tk s [':', 'a', 'r', 't', 'i', 'c', 'l', 'e'] (.mark [':', 'i', 'd'] [.text a.id] ::
    (opt [':', 't', 'i', 't', 'l', 'e'] a.title ++ opt [':', 'a', 'u', 't', 'h', 'o', 'r'] a.author ++ contentParts a.id 1 a.contents ++
      opt [':', 'u', 'r', 'l'] a.url)) (by simp [textsOf, Part.texts]; omega)
  exact congrArg _ m

/-! ### other lines -/

theorem run_stop {step : Text → Built → Ends × Built} {l : Text} {rest : List Text} {s' : Built} (hs : (step l s').1 ≠ .done) :
    ∀ (ls : List Text) (s : Built), run step ls s = (.done, s') → run step (ls ++ l :: rest) s = step l s' := by
  intro ls
  induction ls with
  | nil =>
    intro s h
    simp only [run, Prod.mk.injEq, true_and] at h
    subst h
    simp only [List.nil_append, run]
    rw [if_neg hs]
  | cons x ls ih =>
    intro s h
    simp only [List.cons_append, run] at h ⊢
    by_cases hx : (step x s).1 = .done
    · rw [if_pos hx] at h ⊢; exact ih _ h
    · rw [if_neg hx] at h; exact absurd (by rw [h]) hx

theorem whole_more : ∀ (ls : List Text) (l rest : Text), (∀ x ∈ ls, '\n' ∉ x) → '\n' ∉ l →
    ∃ more, wholeLines (fileOf ls ++ l ++ '\n' :: rest) = ls ++ l :: more := by
  have one : ∀ (l cur rest : Text), '\n' ∉ l → wholeFrom cur (l ++ '\n' :: rest) = (cur ++ l) :: wholeFrom [] rest := by
    intro l
    induction l with
    | nil => intro cur rest _; simp [wholeFrom]
    | cons c l ih =>
      intro cur rest h
      simp only [List.mem_cons, not_or] at h
      simp only [List.cons_append, wholeFrom, if_neg (Ne.symm h.1)]
      rw [ih _ _ h.2]; simp
  intro ls l rest h hl
  refine ⟨wholeFrom [] rest, ?_⟩
  unfold wholeLines
  induction ls with
  | nil => simpa [fileOf] using one l [] rest hl
  | cons x ls ih =>
    have e : fileOf (x :: ls) ++ l ++ '\n' :: rest = x ++ '\n' :: (fileOf ls ++ l ++ '\n' :: rest) := by simp [fileOf]
    rw [e, one _ _ _ (h x (by simp)), ih fun y hy => h y (by simp [hy])]
    rfl

/-- **C90** (part): an article that has no name, or `null` for it, is left out, and the articles after it are read -/
theorem C90_unnamed (line rest : Text) (fs : List (Text × Field)) (s : Built) (hl : '\n' ∉ line) (hp : parse line = .doc (.object fs))
    (hn : (fs.find? fun x => x.1 == ['i', 'd']).elim .null (·.2) = .null) :
    wapo tk parse (line ++ '\n' :: rest) s = wapo tk parse rest s := by
  unfold wapo
  rw [Verif.Judge.lines_cons hl]
  simp only [run, withDoc, hp, wapoDoc, hn, if_true]

/-- **C90** (part): a line that is not JSON is reported; what the lines before it say stays in the index.  Violated: a line with
a number that is too large (for which the parser has another exception) ends the program. -/
theorem C90_not_json (ls : List Text) (l rest : Text) (s s' : Built) (h : ∀ x ∈ ls, '\n' ∉ x) (hl : '\n' ∉ l) :
    (c4 tk parse (fileOf ls) s = (.done, s') →
      (parse l = .bad → c4 tk parse (fileOf ls ++ l ++ '\n' :: rest) s = (.refused, s')) ∧
      (parse l = .over → c4 tk parse (fileOf ls ++ l ++ '\n' :: rest) s = (.dies, s'))) ∧
    (msmarco tk parse (fileOf ls) s = (.done, s') →
      (parse l = .bad → msmarco tk parse (fileOf ls ++ l ++ '\n' :: rest) s = (.refused, s')) ∧
      (parse l = .over → msmarco tk parse (fileOf ls ++ l ++ '\n' :: rest) s = (.dies, s'))) ∧
    (cast22 tk parse (fileOf ls) s = (.done, s') →
      (parse l = .bad → cast22 tk parse (fileOf ls ++ l ++ '\n' :: rest) s = (.refused, s')) ∧
      (parse l = .over → cast22 tk parse (fileOf ls ++ l ++ '\n' :: rest) s = (.dies, s'))) := by
  have w : wholeLines (fileOf ls) = ls := by
    have := whole_file ls [] h (by simp)
    rwa [List.append_nil] at this
  obtain ⟨more, e⟩ := whole_more ls l rest h hl
  have key : ∀ f : Doc → Built → Ends × Built, run (withDoc parse f) ls s = (.done, s') →
      (parse l = .bad → run (withDoc parse f) (ls ++ l :: more) s = (.refused, s')) ∧
      (parse l = .over → run (withDoc parse f) (ls ++ l :: more) s = (.dies, s')) := by
    intro f hf
    constructor
    · intro hp
      have : withDoc parse f l s' = (.refused, s') := by simp [withDoc, hp]
      rw [run_stop (by rw [this]; simp) ls s hf, this]
    · intro hp
      have : withDoc parse f l s' = (.dies, s') := by simp [withDoc, hp]
      rw [run_stop (by rw [this]; simp) ls s hf, this]
  unfold c4 msmarco cast22
  rw [w, e]
  exact ⟨key _, key _, key _⟩

/-! ### where the code differs -/

/-- **C90** is violated: a line without a tab ends the program, whatever is in the index. -/
theorem C90_no_tab (before : List (Text × Text)) (l rest : Text) (s : Built)
    (hl : ∀ r ∈ before, '\t' ∉ r.1 ∧ '\n' ∉ r.1 ∧ '\n' ∉ r.2)
    (h0 : '\n' ∉ l) (h1 : '\t' ∉ l) :
    (marco tk (fileOf (before.map fun r => r.1 ++ '\t' :: r.2) ++ l ++ '\n' :: rest) s).1 = .dies := by
  unfold marco
  have e : lines (fileOf (before.map fun r => r.1 ++ '\t' :: r.2) ++ l ++ '\n' :: rest) = (before.map fun r => r.1 ++ '\t' :: r.2) ++ l :: lines rest := by
    induction before with
    | nil => simp [fileOf, lines_cons h0]
    | cons r before ih =>
      have hr := hl r (by simp)
      have : fileOf ((r :: before).map fun r => r.1 ++ '\t' :: r.2) ++ l ++ '\n' :: rest =
        (r.1 ++ '\t' :: r.2) ++ '\n' :: (fileOf (before.map fun r => r.1 ++ '\t' :: r.2) ++ l ++ '\n' :: rest) := by simp [fileOf]
      rw [this, lines_cons (by simp [hr.2.1, hr.2.2]), ih fun x hx => hl x (by simp [hx])]
      rfl
  rw [e]
  clear e hl
  induction before generalizing s with
  | nil => simp [run, marcoLine, h1]
  | cons r before ih =>
    simp only [List.map_cons, List.cons_append, run, marcoLine]
    rw [if_pos (by simp)]
    exact ih _

/-- **C90** is violated: in three of the collections a last line without a newline is left out, and the answer is that all
went well. -/
theorem C90_last_line (ls : List Text) (last : Text) (s : Built) (h : ∀ l ∈ ls, '\n' ∉ l) (hl : '\n' ∉ last) :
    c4 tk parse (fileOf ls ++ last) s = c4 tk parse (fileOf ls) s ∧ msmarco tk parse (fileOf ls ++ last) s = msmarco tk parse (fileOf ls) s ∧
    cast22 tk parse (fileOf ls ++ last) s = cast22 tk parse (fileOf ls) s := by
  have e : wholeLines (fileOf ls ++ last) = wholeLines (fileOf ls) := by
    have := whole_file ls [] h (by simp)
    rw [List.append_nil] at this
    rw [whole_file ls last h hl, this]
  unfold c4 msmarco cast22
  rw [e]
  exact ⟨rfl, rfl, rfl⟩

/-- **C90** is violated: a document without one of the fields, or with something else than a text there, ends the program. -/
theorem C90_field (l rest : Text) (d : Doc) (s : Built) (h : '\n' ∉ l) (hp : parse l = .doc d) :
    (asText (look d ['p', 'a', 's', 's', 'a', 'g', 'e']) = none → (msmarco tk parse (l ++ '\n' :: rest) s).1 = .dies) ∧
    (asText (look d ['t', 'i', 't', 'l', 'e']) = none → (cast22 tk parse (l ++ '\n' :: rest) s).1 = .dies) := by
  have e : ∃ ls, wholeLines (l ++ '\n' :: rest) = l :: ls := by
    have : ∀ (l cur : Text), '\n' ∉ l → wholeFrom cur (l ++ '\n' :: rest) = (cur ++ l) :: wholeFrom [] rest := by
      intro l
      induction l with
      | nil => intro cur _; simp [wholeFrom]
      | cons c l ih =>
        intro cur h
        simp only [List.mem_cons, not_or] at h
        simp only [List.cons_append, wholeFrom, if_neg (Ne.symm h.1)]
        rw [ih _ h.2]; simp
    exact ⟨_, this l [] h⟩
  obtain ⟨ls, e⟩ := e
  unfold msmarco cast22
  rw [e]
  constructor
  · intro z
    cases hx : asText (look d ['p', 'i', 'd']) <;> simp [run, withDoc, hp, msDoc, z, hx]
  · intro z
    cases hx : asText (look d ['i', 'd']) <;> simp [run, withDoc, hp, castDoc, z, hx]

/-- **C90** is violated: where the text of a passage has no words, the mark over the passage also covers the first word of
what comes next. -/
theorem C90_wordless (s : Built) (name t : Text) (hn : Worded tk name) (ht : tk t = 0) (h : t ≠ []) :
    (passage tk name t s).notes = s.notes ++ [([':', 'p', 'i', 'd'], s.next, s.next + tk name - 1),
      ([':', 'p', 'a', 'r', 'a', 'g', 'r', 'a', 'p', 'h'], s.next, s.next + tk name)] ∧ (passage tk name t s).next = s.next + tk name := by
  have := hn.2
  have e : tk name ≠ 0 := by omega
  have g : s.next ≤ s.next + tk name - 1 := by omega
  simp [passage, addText, hn.1, e, ht, h, annotate, g]

/-- **C90** is violated: where a name has no words, the mark over the passage leaves out its first word. -/
theorem C90_nameless (s : Built) (name t : Text) (hn : tk name = 0) (h : name ≠ []) (ht : Worded tk t) (h2 : 1 < tk t) :
    (passage tk name t s).notes = s.notes ++ [([':', 'p', 'a', 'r', 'a', 'g', 'r', 'a', 'p', 'h'], s.next + 1, s.next + tk t - 1)] := by
  have e : tk t ≠ 0 := by omega
  have g : s.next + 1 ≤ s.next + tk t - 1 := by omega
  have f : ¬ s.next + 1 ≤ s.next := by omega
  simp only [passage, addText, ht.1, e, hn, h, annotate, if_false, if_true, f, g]

end

/-! ### cases -/

/-- the number of words, here of letterCount -/
def letterCount (t : Text) : Nat := (t.filter fun c => c.isAlpha).length

/-- two lines -/
example : marco letterCount (fileOf [['1', '\t', 'a', 'b'], ['2', '\t', 'c']]) { } =
    (.done, ⟨5 + 2 + 5 + 1, [['M', 'A', 'R', 'C', 'O', '_', '1'], ['\t', 'a', 'b'], ['M', 'A', 'R', 'C', 'O', '_', '2'], ['\t', 'c']],
      [([':', 'p', 'i', 'd'], 0, 4), ([':', 'p', 'a', 'r', 'a', 'g', 'r', 'a', 'p', 'h'], 0, 6),
       ([':', 'p', 'i', 'd'], 7, 11), ([':', 'p', 'a', 'r', 'a', 'g', 'r', 'a', 'p', 'h'], 7, 12)]⟩) := by
  have := C90_marco_partial letterCount [(['1'], ['a', 'b']), (['2'], ['c'])] { } (by decide) (by
    intro r hr
    simp only [List.mem_cons, List.not_mem_nil, or_false] at hr
    rcases hr with rfl | rfl <;> exact ⟨⟨by decide, by decide⟩, ⟨by decide, by decide⟩⟩)
  exact this.trans (by decide)

/-- an article with a title, two paragraphs, one of them made of two texts, and a picture without a text -/
def someElements : List (List (Text × Value)) :=
     [[(['b', 'l', 'u', 'r', 'b'], .text ['a']), (['c', 'o', 'n', 't', 'e', 'n', 't'], .text ['b']),
        (['s', 'u', 'b', 't', 'y', 'p', 'e'], .text ['p', 'a', 'r', 'a', 'g', 'r', 'a', 'p', 'h'])],
      [(['s', 'r', 'c'], .text ['z'])],
      [(['c', 'o', 'n', 't', 'e', 'n', 't'], .text ['c']), (['s', 'u', 'b', 't', 'y', 'p', 'e'], .text ['p', 'a', 'r', 'a', 'g', 'r', 'a', 'p', 'h'])]]

def anArticle : List (Text × Field) :=
  [(['i', 'd'], .text ['x']), (['t', 'i', 't', 'l', 'e'], .text ['T']), (['c', 'o', 'n', 't', 'e', 'n', 't', 's'], .array someElements)]

example : wapo letterCount (fun _ => .doc (.object anArticle)) (fileOf [['{', '}']]) { } =
    (.done, Built.plus letterCount { } [Article.part ⟨['x'], some ['T'], none, [(true, ['a', ' ', 'b']), (true, ['c'])], none⟩]) := by
  refine C90_wapo_partial letterCount (fun _ => .doc (.object anArticle)) [(['{', '}'], anArticle, someElements, ⟨['x'], some ['T'], none, [(true, ['a', ' ', 'b']), (true, ['c'])], none⟩)] { } ?_ ?_
  · intro r hr
    simp only [List.mem_cons, List.not_mem_nil, or_false] at hr
    subst hr
    refine ⟨by decide, rfl, rfl, rfl, rfl, rfl, rfl, ?_⟩
    have tx : ∀ e : List (Text × Value), (∀ x ∈ e, ∃ t, x.2 = .text t) → (∀ t ∈ pieces e, t ≠ []) → Texts e :=
      fun e h h2 => ⟨fun x hx _ => let ⟨t, ht⟩ := h x hx; ⟨t, .inl ht⟩, h2⟩
    refine .para (tx _ ?_ ?_) ?_ (by simp [Marked]) (.mute (tx _ ?_ ?_) ?_ (.para (tx _ ?_ ?_) ?_ (by simp [Marked]) .nil)) <;> simp [pieces]
  · intro r hr
    simp only [List.mem_cons, List.not_mem_nil, or_false] at hr
    subst hr
    refine ⟨⟨by decide, by decide⟩, ?_, by simp, by simp, ?_, ?_⟩
    · intro t ht; simp at ht; subst ht; exact ⟨by decide, by decide⟩
    · intro c hc
      simp only [List.mem_cons, List.not_mem_nil, or_false] at hc
      rcases hc with rfl | rfl <;> exact ⟨by decide, by decide⟩
    · intro n
      refine ⟨by simp [paraName], ?_⟩
      unfold paraName letterCount
      simp only [List.cons_append, List.nil_append, List.filter_cons]
      rw [if_pos (by decide)]
      simp

/-- `7` and a tab, then another line: the first paragraph ends with the first word of the second name -/
example : (marco letterCount (fileOf [['7', '\t'], ['8', '\t', 'a']]) { }).2.notes =
    [([':', 'p', 'i', 'd'], 0, 4), ([':', 'p', 'a', 'r', 'a', 'g', 'r', 'a', 'p', 'h'], 0, 5),
     ([':', 'p', 'i', 'd'], 5, 9), ([':', 'p', 'a', 'r', 'a', 'g', 'r', 'a', 'p', 'h'], 5, 10)] := by decide

/-- the texts are added, but not the last line -/
example : (msmarco letterCount (fun l => .doc (.object [(['p', 'i', 'd'], .text l), (['p', 'a', 's', 's', 'a', 'g', 'e'], .text l)]))
    ['a', '\n', 'b'] { }) = (.done, ⟨2, [['a'], ['a']],
      [([':', 'p', 'i', 'd'], 0, 0), ([':', 'p', 'a', 'r', 'a', 'g', 'r', 'a', 'p', 'h'], 0, 1)]⟩) := by decide

/-- a page -/
example : c4 letterCount (fun l => .doc (.object [(['t', 'e', 'x', 't'], .text l), (['u', 'r', 'l'], .text ['u'])])) ['a', '\n'] { } =
    (.done, Built.plus letterCount { } [.mark [':'] [.mark [':', 't', 'e', 'x', 't'] [.text ['a']], .mark [':', 'u', 'r', 'l'] [.text ['u']]]]) := by
  decide

end Verif.Props
