import Verif.Judge.Proof
import Verif.Props.Eval
import Verif.Props.Paths
/-
  C84: a judgement counts for the document that it names.
-/
namespace Verif.Props
open Verif.Hopper Verif.Gcl
open Verif.Paths (isSpace Worded den_path)
open Verif.Judge (query translateDocno trecDocno startTag endTag load Loaded Plain)

/-! ### the specification -/

/-- a document, where its number is, and the number -/
structure NumberedDoc where
  span : Ann
  number : Ann
  docno : List Char

/-- The documents of a warren: the container query finds the documents, the identifier query their numbers; a number is
inside its document and in no other, and has the words of the number one after the other. -/
structure DocsNumbered (ix : Index) (split : List Char → List (List Char)) (c i : SExpr) (docs : List NumberedDoc) : Prop where
  spans : ∀ a, den ix.solutions (expandPhrases split '"' c) a ↔ ∃ d ∈ docs, d.span = a
  numbers : ∀ a, den ix.solutions (expandPhrases split '"' i) a ↔ ∃ d ∈ docs, d.number = a
  within : ∀ d ∈ docs, inside d.number d.span
  own : ∀ d ∈ docs, ∀ e ∈ docs, inside d.number e.span → d = e
  size : ∀ d ∈ docs, d.number.q = d.number.p + (split d.docno).length - 1
  words : ∀ d ∈ docs, ∀ n : Nat, n < (split d.docno).length → ∀ x, ∀ t ∈ split x,
    ((∃ a, ix.solutions t a ∧ a.p = d.number.p + n) ↔ (split d.docno)[n]? = some t)

/-- a number that can be looked up: no quote, backslash or NUL, and some word -/
structure CanAsk (ix : Index) (split : List Char → List (List Char)) (docno : List Char) : Prop where
  plain : ∀ c ∈ docno, c ≠ '"' ∧ c ≠ '\\' ∧ c ≠ '\x00'
  some_char : docno ≠ []
  some_word : split docno ≠ []
  few : (split docno).length ≤ 4294967295
  good : ∀ t ∈ split docno, GoodTerm t
  points : ∀ t ∈ split docno, ∀ a, ix.solutions t a → a.p = a.q

/-- queries that are well written -/
structure QueriesOk (split : List Char → List (List Char)) (container identifier : List Char) (c i : SExpr) : Prop where
  container : Writes container c
  identifier : Writes identifier i
  containerLegal : Legal (expandPhrases split '"' c)
  identifierLegal : Legal (expandPhrases split '"' i)

section
variable {ix : Index} {split : List Char → List (List Char)} {container identifier : List Char} {c i : SExpr} {docs : List NumberedDoc}

theorem den_tree (hn : DocsNumbered ix split c i docs) {docno : List Char} (ha : CanAsk ix split docno) (a : Ann)
    (wi : Wf (den ix.solutions (expandPhrases split '"' i))) :
    (∃ d ∈ docs, d.span = a ∧ split docno <:+: split d.docno) ↔
      den ix.solutions (expandPhrases split '"' (Judge.tree c i docno)) a := by
  have hesc : Paths.escape docno = docno := Judge.escape_id fun c hc => ⟨(ha.plain c hc).1, (ha.plain c hc).2.1⟩
  have hw : Worded split docno := ⟨by rw [hesc]; exact ha.some_word, by rw [hesc]; exact ha.few, by rw [hesc]; exact ha.good⟩
  have key : ∀ d ∈ docs, (∃ b, den ix.solutions (expandPhrases split '"' (.node .term (Paths.gclString docno) 0 [])) b ∧ inside b d.number) ↔
      split docno <:+: split d.docno := by
    intro d hd
    have hi := (hn.numbers d.number).2 ⟨d, hd, rfl⟩
    have h1 := wi.lo hi; have h2 := wi.hi hi
    have := den_path ix ha.some_char hw (by rw [hesc]; exact ha.points) (r := d.number) h1 h2
    rw [hesc] at this
    rw [this]
    exact Judge.consecutive_infix (ok := fun t => t ∈ split docno) (hn.size d hd) (fun n h t ht => hn.words d hd n h docno t ht)
      (fun t ht => ht) ha.some_word
  rw [Judge.expand_tree, Judge.den_containing]
  constructor
  · rintro ⟨d, hd, rfl, hx⟩
    exact ⟨(hn.spans _).2 ⟨d, hd, rfl⟩, d.number,
      (Judge.den_containing _ _ _).2 ⟨(hn.numbers _).2 ⟨d, hd, rfl⟩, (key d hd).2 hx⟩, hn.within d hd⟩
  · rintro ⟨h1, b, h2, h3⟩
    obtain ⟨d, hd, rfl⟩ := (hn.spans a).1 h1
    obtain ⟨h4, h5⟩ := (Judge.den_containing _ _ _).1 h2
    obtain ⟨e, he, rfl⟩ := (hn.numbers b).1 h4
    have := hn.own e he d hd h3
    subst this
    exact ⟨e, he, rfl, (key e he).1 h5⟩

/-- **C84.** Looking up a document's number finds the first document whose number has the words of that number one
after the other, and fails exactly if there is none. -/
theorem C84_finds (count : List Char → Int) (hq : QueriesOk split container identifier c i) (hn : DocsNumbered ix split c i docs)
    {docno : List Char} (ha : CanAsk ix split docno) :
    ∃ r, translateDocno ix split count container (some identifier) docno = some r ∧
      (∀ a, r = some a ↔ (∃ d ∈ docs, d.span = a ∧ split docno <:+: split d.docno) ∧
        ∀ e ∈ docs, split docno <:+: split e.docno → a.p ≤ e.span.p) ∧
      (r = none ↔ ∀ d ∈ docs, ¬ split docno <:+: split d.docno) := by
  obtain ⟨r, h1, h2⟩ := Judge.translate_first ix count hq.container hq.identifier hq.containerLegal hq.identifierLegal
    ha.plain ha.few ha.good
  have wi := den_wf ix.wf _ hq.identifierLegal
  obtain ⟨k1, k2⟩ := h2 (fun a => ∃ d ∈ docs, d.span = a ∧ split docno <:+: split d.docno) fun a => den_tree hn ha a wi
  refine ⟨r, h1, fun a => ?_, ?_⟩
  · rw [k1]
    constructor
    · rintro ⟨g1, g2⟩; exact ⟨g1, fun e he hx => g2 _ ⟨e, he, rfl, hx⟩⟩
    · rintro ⟨g1, g2⟩; refine ⟨g1, ?_⟩; rintro _ ⟨e, he, rfl, hx⟩; exact g2 e he hx
  · rw [k2]
    constructor
    · intro g d hd hx; exact g _ ⟨d, hd, rfl, hx⟩
    · rintro g _ ⟨d, hd, rfl, hx⟩; exact g d hd hx

/-- **C84 (partial).** The number of a document finds that document, if the words of the number are not in the number of an
earlier document.  What is missing: numbers whose words are in the number of an earlier document (`C84_longer`). -/
theorem C84_document_partial (count : List Char → Int) (hq : QueriesOk split container identifier c i) (hn : DocsNumbered ix split c i docs)
    {d : NumberedDoc} (hd : d ∈ docs) (ha : CanAsk ix split d.docno)
    (hc : ∀ e ∈ docs, split d.docno <:+: split e.docno → d.span.p ≤ e.span.p) :
    translateDocno ix split count container (some identifier) d.docno = some (some d.span) := by
  obtain ⟨r, h1, h2, -⟩ := C84_finds count hq hn ha
  rw [h1, (h2 d.span).2 ⟨⟨d, hd, rfl, List.infix_rfl⟩, hc⟩]

/-- **C84 (violated).** If the words of a document's number are part of the number of an earlier document, its number
finds another document. -/
theorem C84_longer (count : List Char → Int) (hq : QueriesOk split container identifier c i) (hn : DocsNumbered ix split c i docs)
    {d e : NumberedDoc} (hd : d ∈ docs) (he : e ∈ docs) (ha : CanAsk ix split d.docno)
    (hx : split d.docno <:+: split e.docno) (hlt : e.span.p < d.span.p) :
    ∃ a, translateDocno ix split count container (some identifier) d.docno = some (some a) ∧ a ≠ d.span := by
  obtain ⟨r, h1, h2, h3⟩ := C84_finds count hq hn ha
  cases r with
  | none => exact absurd hx (h3.1 rfl e he)
  | some a =>
    refine ⟨a, h1, ?_⟩
    have := ((h2 a).1 rfl).2 e he hx
    rintro rfl; omega

/-- **C84.** A number that is not in the warren is refused, if no document's number has its words. -/
theorem C84_unknown (count : List Char → Int) (hq : QueriesOk split container identifier c i) (hn : DocsNumbered ix split c i docs)
    {docno : List Char} (ha : CanAsk ix split docno) (h : ∀ d ∈ docs, ¬ split docno <:+: split d.docno) :
    translateDocno ix split count container (some identifier) docno = some none := by
  obtain ⟨r, h1, -, h3⟩ := C84_finds count hq hn ha
  rw [h1, h3.2 h]

/-- **C84.** Without a container or without an identifier, every number is refused. -/
theorem C84_unset (count : List Char → Int) (docno : List Char) :
    translateDocno ix split count [] (some identifier) docno = some none ∧
    translateDocno ix split count container none docno = some none ∧
    translateDocno ix split count container (some []) docno = some none := by
  refine ⟨rfl, ?_, ?_⟩
  · unfold translateDocno; split <;> rfl
  · unfold translateDocno; split <;> rfl

end

/-- **C84 (violated).** A quote in a number ends the phrase: the rest of the number becomes another operand of the query. -/
theorem C84_quote : fromString (query [':'] ['i', 'd'] ['b', '"', 'c']) = .good [')'] (.node .containing [] 0
    [.node .term [':'] 0 [], .node .containing [] 0
      [.node .term ['i', 'd'] 0 [], .node .term ['"', 'b', '"'] 0 [], .node .term ['c', '"'] 0 []]]) := by
  rfl

/-! ### the file -/

/-- a line: topic, a field that is not used, the number of a document and a level -/
structure Row where
  topic : List Char
  iter : List Char
  docno : List Char
  level : List Char

/-- something without blanks -/
def Solid (s : List Char) : Prop := s ≠ [] ∧ ∀ c ∈ s, isSpace c = false

/-- blanks within a line -/
def Gap (s : List Char) : Prop := ∀ c ∈ s, isSpace c = true ∧ c ≠ '\n'

/-- the line is a way to write the row -/
def WritesRow (line : List Char) (r : Row) : Prop :=
  Solid r.topic ∧ Solid r.iter ∧ Solid r.docno ∧ Solid r.level ∧
  ∃ g1 g2 g3 g4, Gap g1 ∧ g1 ≠ [] ∧ Gap g2 ∧ g2 ≠ [] ∧ Gap g3 ∧ g3 ≠ [] ∧ Gap g4 ∧
    line = r.topic ++ g1 ++ r.iter ++ g2 ++ r.docno ++ g3 ++ r.level ++ g4

/-- the file is a way to write the rows: one on each line, the last with or without a newline -/
inductive WritesRows : List Char → List Row → Prop
  | nil : WritesRows [] []
  | last {line r} : WritesRow line r → WritesRows line [r]
  | cons {line r rest rs} : WritesRow line r → WritesRows rest rs → WritesRows (line ++ '\n' :: rest) (r :: rs)

theorem solid_newline {s : List Char} (h : Solid s) : '\n' ∉ s := by
  intro hn
  have := h.2 _ hn
  exact absurd this (by decide)

theorem row_newline {line : List Char} {r : Row} (h : WritesRow line r) : '\n' ∉ line ∧ line ≠ [] := by
  obtain ⟨s1, s2, s3, s4, g1, g2, g3, g4, k1, -, k2, -, k3, -, k4, rfl⟩ := h
  have e1 := solid_newline s1; have e2 := solid_newline s2; have e3 := solid_newline s3; have e4 := solid_newline s4
  have f1 : '\n' ∉ g1 := fun h => (k1 _ h).2 rfl
  have f2 : '\n' ∉ g2 := fun h => (k2 _ h).2 rfl
  have f3 : '\n' ∉ g3 := fun h => (k3 _ h).2 rfl
  have f4 : '\n' ∉ g4 := fun h => (k4 _ h).2 rfl
  exact ⟨by simp_all, by simp [s1.1]⟩

theorem row_fields {line : List Char} {r : Row} (h : WritesRow line r) :
    Judge.fields line = [r.topic, r.iter, r.docno, r.level] := by
  obtain ⟨s1, s2, s3, s4, g1, g2, g3, g4, k1, n1, k2, n2, k3, n3, k4, rfl⟩ := h
  have b1 := fun c hc => (k1 c hc).1
  have b2 := fun c hc => (k2 c hc).1
  have b3 := fun c hc => (k3 c hc).1
  have b4 := fun c hc => (k4 c hc).1
  unfold Judge.fields
  simp only [List.append_assoc]
  rw [Judge.fieldsFrom_text s1.2 _ _ _ _ s1.1, Judge.fieldsFrom_blank b1 n1, Judge.fieldsFrom_text s2.2 _ _ _ _ s2.1,
    Judge.fieldsFrom_blank b2 n2, Judge.fieldsFrom_text s3.2 _ _ _ _ s3.1, Judge.fieldsFrom_blank b3 n3,
    Judge.fieldsFrom_text s4.2 _ _ _ _ s4.1]
  by_cases n4 : g4 = []
  · subst n4; simp [Judge.fieldsFrom, s4.1]
  · have := Judge.fieldsFrom_blank b4 n4 false ([] ++ r.level) []
    rw [List.append_nil] at this
    rw [this]; simp [Judge.fieldsFrom]

/-- what the rows say, with the document of each -/
def entriesOf (doc : List Char → Ann) (atof : List Char → Rat) (rows : List Row) : List Judge.Entry :=
  rows.map fun r => ⟨r.topic, r.docno, doc r.docno, atof r.level⟩

theorem rows_read {translate : List Char → Option (Option Ann)} {atof : List Char → Rat} {doc : List Char → Ann}
    {text : List Char} {rows : List Row} (h : WritesRows text rows) :
    (∀ r ∈ rows, translate r.docno = some (some (doc r.docno))) →
    Judge.readLines translate atof (Judge.lines text) = some (entriesOf doc atof rows, true) := by
  have one : ∀ {line : List Char} {r : Row} {rest : List (List Char)} {es : List Judge.Entry}, WritesRow line r →
      translate r.docno = some (some (doc r.docno)) → Judge.readLines translate atof rest = some (es, true) →
      Judge.readLines translate atof (line :: rest) = some (⟨r.topic, r.docno, doc r.docno, atof r.level⟩ :: es, true) := by
    intro line r rest es h1 h2 h3
    rw [Judge.readLines, row_fields h1]
    simp only [h2, h3]
  induction h with
  | nil => intro _; rfl
  | last h =>
    intro ht
    rw [Judge.lines_one (row_newline h).1 (row_newline h).2]
    exact one h (ht _ (by simp)) rfl
  | cons h _ ih =>
    intro ht
    rw [Judge.lines_cons (row_newline h).1]
    exact one h (ht _ (by simp)) (ih fun r hr => ht r (by simp [hr]))

/-- the last row for a topic and a number has the level `v` -/
def LastRow (atof : List Char → Rat) (rows : List Row) (topic docno : List Char) (v : Rat) : Prop :=
  ∃ before r after, rows = before ++ r :: after ∧ r.topic = topic ∧ r.docno = docno ∧ atof r.level = v ∧
    ∀ x ∈ after, ¬ (x.topic = topic ∧ x.docno = docno)

/-- the greatest level of the rows -/
def TopRow (atof : List Char → Rat) (rows : List Row) (top : Rat) : Prop :=
  (∃ r ∈ rows, atof r.level = top) ∧ ∀ r ∈ rows, atof r.level ≤ top

theorem put_mem {β : Type} {key : List Char × Int} {value : β} : ∀ {m : List ((List Char × Int) × β)}, (m.map (·.1)).Nodup →
    ((Judge.put key value m).map (·.1)).Nodup ∧
    (∀ k, k ∈ (Judge.put key value m).map (·.1) ↔ k = key ∨ k ∈ m.map (·.1)) ∧
    ∀ k x, (k, x) ∈ Judge.put key value m ↔ (k = key ∧ x = value) ∨ (k ≠ key ∧ (k, x) ∈ m)
  | [], _ => by simp [Judge.put]
  | (k', x') :: m, h => by
    simp only [List.map_cons, List.nodup_cons] at h
    obtain ⟨i1, i2, i3⟩ := put_mem (key := key) (value := value) h.2
    unfold Judge.put
    by_cases e : k' = key
    · subst e
      rw [if_pos rfl]
      refine ⟨by simpa using h, by simp, fun k x => ?_⟩
      simp only [List.mem_cons, Prod.mk.injEq]
      constructor
      · rintro (g | g)
        · exact .inl g
        · refine .inr ⟨?_, .inr g⟩
          rintro rfl; exact h.1 (List.mem_map.2 ⟨_, g, rfl⟩)
      · rintro (g | ⟨g1, g | g⟩)
        · exact .inl g
        · exact absurd g.1 g1
        · exact .inr g
    · rw [if_neg (by simpa using e)]
      refine ⟨?_, ?_, fun k x => ?_⟩
      · simp only [List.map_cons, List.nodup_cons]
        refine ⟨fun g => ?_, i1⟩
        rcases (i2 _).1 g with g | g
        · exact e g
        · exact h.1 g
      · intro k
        simp only [List.map_cons, List.mem_cons, i2]
        constructor
        · rintro (g | g | g)
          · exact .inr (.inl g)
          · exact .inl g
          · exact .inr (.inr g)
        · rintro (g | g | g)
          · exact .inr (.inl g)
          · exact .inl g
          · exact .inr (.inr g)
      · simp only [List.mem_cons, Prod.mk.injEq, i3]
        constructor
        · rintro (⟨rfl, rfl⟩ | g | ⟨g1, g2⟩)
          · exact .inr ⟨e, .inl ⟨rfl, rfl⟩⟩
          · exact .inl g
          · exact .inr ⟨g1, .inr g2⟩
        · rintro (g | ⟨g1, g | g⟩)
          · exact .inr (.inl g)
          · exact .inl g
          · exact .inr (.inr ⟨g1, g⟩)

/-- a map whose values are determined by the keys holds what was put into it -/
theorem puts_mem {β : Type} (key : Judge.Entry → List Char × Int) (value : Judge.Entry → β) :
    ∀ (es : List Judge.Entry) (m : List ((List Char × Int) × β)), (m.map (·.1)).Nodup →
      (∀ e ∈ es, ∀ f ∈ es, key e = key f → value e = value f) →
      (∀ e ∈ es, ∀ k x, (k, x) ∈ m → key e = k → value e = x) →
      ((es.foldl (fun m e => Judge.put (key e) (value e) m) m).map (·.1)).Nodup ∧
      ∀ k x, (k, x) ∈ es.foldl (fun m e => Judge.put (key e) (value e) m) m ↔ (∃ e ∈ es, key e = k ∧ value e = x) ∨ (k, x) ∈ m
  | [], m, h, _, _ => by simpa using h
  | e :: es, m, h, h1, h2 => by
    obtain ⟨p1, _, p3⟩ := put_mem (key := key e) (value := value e) h
    obtain ⟨i1, i2⟩ := puts_mem key value es _ p1 (fun a ha b hb => h1 a (by simp [ha]) b (by simp [hb])) (by
      intro f hf k x hx hk
      rcases (p3 k x).1 hx with ⟨rfl, rfl⟩ | ⟨_, hx⟩
      · exact h1 f (by simp [hf]) e (by simp) hk
      · exact h2 f (by simp [hf]) k x hx hk)
    refine ⟨i1, fun k x => ?_⟩
    rw [List.foldl_cons, i2, p3]
    constructor
    · rintro (⟨f, hf, g⟩ | ⟨rfl, rfl⟩ | ⟨_, g⟩)
      · exact .inl ⟨f, by simp [hf], g⟩
      · exact .inl ⟨e, by simp, rfl, rfl⟩
      · exact .inr g
    · rintro (⟨f, hf, g1, g2⟩ | g)
      · rcases List.mem_cons.1 hf with rfl | hf
        · exact .inr (.inl ⟨g1.symm, g2.symm⟩)
        · exact .inl ⟨f, hf, g1, g2⟩
      · by_cases hk : k = key e
        · exact .inr (.inl ⟨hk, (h2 e (by simp) k x g hk.symm).symm⟩)
        · exact .inr (.inr ⟨hk, g⟩)

section
variable {ix : Index} {split : List Char → List (List Char)} {container identifier : List Char} {c i : SExpr} {docs : List NumberedDoc}

/-- every row names a document, and finds it -/
def Names (split : List Char → List (List Char)) (docs : List NumberedDoc) (rows : List Row) (ix : Index) : Prop :=
  ∀ r ∈ rows, CanAsk ix split r.docno ∧ ∃ d ∈ docs, d.docno = r.docno ∧
    ∀ e ∈ docs, split r.docno <:+: split e.docno → d.span.p ≤ e.span.p

/-- **C84 (partial).** A file of judgements is read, and gives to each topic and document that it names the level of the last
row for them, or zero if that is negative, divided by the greatest level of the file; with it the length of the
document and its number.  What is missing: files that name a document whose number's words are in an earlier document's
number, or a number that cannot be asked for; files without a positive level (`C60_grades_zero_undefined`). -/
theorem C84_file_partial (count : List Char → Int) (hq : QueriesOk split container identifier c i) (hn : DocsNumbered ix split c i docs)
    (atof : List Char → Rat) (pow : Rat → Rat) {text : List Char} {rows : List Row} (hw : WritesRows text rows)
    (hd : Names split docs rows ix) {top : Rat} (ht : TopRow atof rows top) (h0 : 0 < top) :
    ∃ l, load (translateDocno ix split count container (some identifier)) atof pow false text = some l ∧ l.ok = true ∧
      (l.qrels.map (·.1)).Nodup ∧ (l.lengths.map (·.1)).Nodup ∧ (l.docnos.map (·.1)).Nodup ∧
      (∀ x ∈ l.qrels, ∃ d ∈ docs, x.1.2 = d.span.p) ∧
      ∀ d ∈ docs, (∀ e ∈ docs, split d.docno <:+: split e.docno → d.span.p ≤ e.span.p) → ∀ topic,
        (∀ y, ((topic, d.span.p), y) ∈ l.qrels ↔ ∃ v, LastRow atof rows topic d.docno v ∧ y = some (max 0 v / top)) ∧
        (∀ y, ((topic, d.span.p), y) ∈ l.lengths ↔
          (∃ r ∈ rows, r.topic = topic ∧ r.docno = d.docno) ∧ y = d.span.q - d.span.p + 1) ∧
        (∀ y, ((topic, d.span.p), y) ∈ l.docnos ↔ (∃ r ∈ rows, r.topic = topic ∧ r.docno = d.docno) ∧ y = d.docno) := by
  classical
  have wc := den_wf ix.wf _ hq.containerLegal
  let doc : List Char → Ann := fun n => match translateDocno ix split count container (some identifier) n with
    | some (some a) => a
    | _ => lowEnd
  have tr : ∀ r ∈ rows, ∃ d ∈ docs, d.docno = r.docno ∧ (∀ e ∈ docs, split r.docno <:+: split e.docno → d.span.p ≤ e.span.p) ∧
      translateDocno ix split count container (some identifier) r.docno = some (some d.span) := by
    intro r hr
    obtain ⟨h1, d, h2, h3, h4⟩ := hd r hr
    refine ⟨d, h2, h3, h4, ?_⟩
    rw [← h3]
    exact C84_document_partial count hq hn h2 (by rw [h3]; exact h1) (by rw [h3]; exact h4)
  have hdoc : ∀ r ∈ rows, translateDocno ix split count container (some identifier) r.docno = some (some (doc r.docno)) := by
    intro r hr
    obtain ⟨d, _, _, _, h⟩ := tr r hr
    show _ = some (some (match translateDocno ix split count container (some identifier) r.docno with
      | some (some a) => a
      | _ => lowEnd))
    rw [h]
  -- documents of rows, by where they begin
  have same : ∀ r ∈ rows, ∀ d ∈ docs, (∀ e ∈ docs, split d.docno <:+: split e.docno → d.span.p ≤ e.span.p) →
      ((doc r.docno).p = d.span.p ↔ r.docno = d.docno) := by
    intro r hr d hdm hcl
    obtain ⟨e, he, hen, hec, het⟩ := tr r hr
    have hspan : doc r.docno = e.span := by
      have := hdoc r hr; rw [het] at this; simpa using this.symm
    rw [hspan]
    constructor
    · intro h
      have hs := wc.uniq ((hn.spans _).2 ⟨e, he, rfl⟩) ((hn.spans _).2 ⟨d, hdm, rfl⟩) h
      have : e = d := hn.own e he d hdm (by rw [← hs]; exact hn.within e he)
      rw [← hen, this]
    · intro h
      have a1 := hec d hdm (by rw [h]; exact List.infix_rfl)
      have a2 := hcl e he (by rw [hen, h]; exact List.infix_rfl)
      omega
  have read := rows_read (translate := translateDocno ix split count container (some identifier)) (atof := atof) (doc := doc) hw hdoc
  refine ⟨_, by unfold load; rw [read], rfl, ?_⟩
  have hgr : Judge.graded (entriesOf doc atof rows) = rows.map fun r => ((r.topic, (doc r.docno).p), atof r.level) := by
    simp [Judge.graded, entriesOf, Function.comp_def]
  have htop : TopLevel (Judge.graded (entriesOf doc atof rows)) top := by
    rw [hgr]
    obtain ⟨⟨r, hr, hrt⟩, h2⟩ := ht
    refine ⟨⟨_, List.mem_map.2 ⟨r, hr, rfl⟩, hrt⟩, ?_⟩
    intro z hz
    obtain ⟨r', hr', rfl⟩ := List.mem_map.1 hz
    exact h2 r' hr'
  obtain ⟨q1, q2⟩ := C60_grades_partial pow htop h0
  have entry : ∀ e ∈ entriesOf doc atof rows, ∃ r ∈ rows, e = ⟨r.topic, r.docno, doc r.docno, atof r.level⟩ := by
    intro e he
    obtain ⟨r, hr, rfl⟩ := List.mem_map.1 he
    exact ⟨r, hr, rfl⟩
  -- the document of an entry is determined by where it begins
  have det : ∀ e ∈ entriesOf doc atof rows, ∀ f ∈ entriesOf doc atof rows, (e.topic, e.doc.p) = (f.topic, f.doc.p) →
      e.doc = f.doc ∧ e.docno = f.docno := by
    intro e he f hf h
    obtain ⟨r, hr, rfl⟩ := entry e he
    obtain ⟨s, hs, rfl⟩ := entry f hf
    simp only [Prod.mk.injEq] at h
    obtain ⟨d, hdm, hdn, hdc, hdt⟩ := tr s hs
    have hsp : doc s.docno = d.span := by
      have := hdoc s hs; rw [hdt] at this; simpa using this.symm
    have h2 := h.2
    rw [hsp] at h2
    have := (same r hr d hdm (by rw [hdn]; exact hdc)).1 h2
    simp only []
    rw [this, hdn]
    exact ⟨rfl, rfl⟩
  obtain ⟨l1, l2⟩ := puts_mem (fun e => (e.topic, e.doc.p)) (fun e => e.doc.q - e.doc.p + 1) (entriesOf doc atof rows) []
    (by simp) (fun e he f hf h => by rw [(det e he f hf h).1]) (by simp)
  obtain ⟨n1, n2⟩ := puts_mem (fun e => (e.topic, e.doc.p)) (fun e => e.docno) (entriesOf doc atof rows) []
    (by simp) (fun e he f hf h => (det e he f hf h).2) (by simp)
  refine ⟨by simpa using q1, l1, n1, ?_, ?_⟩
  · rintro ⟨⟨t, p⟩, y⟩ hx
    simp only [if_true] at hx
    obtain ⟨v, ⟨b, a, e, _⟩, _⟩ := (q2 _ _).1 hx
    rw [hgr] at e
    have : ((t, p), v) ∈ rows.map fun r => ((r.topic, (doc r.docno).p), atof r.level) := by rw [e]; simp
    obtain ⟨r, hr, he⟩ := List.mem_map.1 this
    simp only [Prod.mk.injEq] at he
    obtain ⟨d, hdm, _, _, hdt⟩ := tr r hr
    have hsp : doc r.docno = d.span := by
      have := hdoc r hr; rw [hdt] at this; simpa using this.symm
    exact ⟨d, hdm, by rw [← he.1.2, hsp]⟩
  · intro d hdm hcl topic
    have hspan : ∀ r ∈ rows, r.docno = d.docno → doc r.docno = d.span := by
      intro r hr hrn
      obtain ⟨e, he, hen, hec, het⟩ := tr r hr
      have hs : doc r.docno = e.span := by
        have := hdoc r hr; rw [het] at this; simpa using this.symm
      have h := (same r hr d hdm hcl).2 hrn
      rw [hs] at h ⊢
      exact wc.uniq ((hn.spans _).2 ⟨e, he, rfl⟩) ((hn.spans _).2 ⟨d, hdm, rfl⟩) h
    refine ⟨fun y => ?_, fun y => ?_, fun y => ?_⟩
    · simp only [if_true]
      rw [q2]
      have hlast : ∀ v, Eval.LastLine (Judge.graded (entriesOf doc atof rows)) (topic, d.span.p) v ↔ LastRow atof rows topic d.docno v := by
        intro v
        rw [hgr]
        constructor
        · rintro ⟨b, a, e, ha⟩
          obtain ⟨b', r', rfl, hb, hr'⟩ := List.map_eq_append_iff.1 e
          obtain ⟨r, a', rfl, hr, ha'⟩ := List.map_eq_cons_iff.1 hr'
          simp only [Prod.mk.injEq] at hr
          refine ⟨b', r, a', rfl, hr.1.1, (same r (by simp) d hdm hcl).1 hr.1.2, hr.2, ?_⟩
          rintro x hx ⟨x1, x2⟩
          refine ha ((x.topic, (doc x.docno).p), atof x.level) (by rw [← ha']; exact List.mem_map.2 ⟨x, hx, rfl⟩) ?_
          simp only [Prod.mk.injEq]
          exact ⟨x1, (same x (by simp [hx]) d hdm hcl).2 x2⟩
        · rintro ⟨b, r, a, rfl, h1, h2, h3, h4⟩
          refine ⟨b.map fun r => ((r.topic, (doc r.docno).p), atof r.level), a.map fun r => ((r.topic, (doc r.docno).p), atof r.level), ?_, ?_⟩
          · simp only [List.map_append, List.map_cons, h1, h3, (same r (by simp) d hdm hcl).2 h2]
          · intro z hz
            obtain ⟨x, hx, rfl⟩ := List.mem_map.1 hz
            intro e
            simp only [Prod.mk.injEq] at e
            exact h4 x hx ⟨e.1, (same x (by simp [hx]) d hdm hcl).1 e.2⟩
      constructor
      · rintro ⟨v, h1, h2, -⟩; exact ⟨v, (hlast v).1 h1, h2⟩
      · rintro ⟨v, h1, h2⟩
        refine ⟨v, (hlast v).2 h1, h2, ?_⟩
        obtain ⟨b, r, a, rfl, _, _, h3, _⟩ := h1
        have hv : v ≤ top := by rw [← h3]; exact ht.2 r (by simp)
        exact ⟨Eval.div_nonneg' (by grind) (Rat.le_of_lt h0), Eval.div_one_le h0 (by grind)⟩
    · rw [l2]
      simp only [List.not_mem_nil, or_false]
      constructor
      · rintro ⟨e, he, h1, h2⟩
        obtain ⟨r, hr, rfl⟩ := entry e he
        simp only [Prod.mk.injEq] at h1 h2
        have hrn := (same r hr d hdm hcl).1 h1.2
        rw [hspan r hr hrn] at h2
        exact ⟨⟨r, hr, h1.1, hrn⟩, h2.symm⟩
      · rintro ⟨⟨r, hr, h1, h2⟩, rfl⟩
        refine ⟨_, List.mem_map.2 ⟨r, hr, rfl⟩, ?_, ?_⟩
        · simp only [Prod.mk.injEq, hspan r hr h2]; exact ⟨h1, trivial⟩
        · simp only [hspan r hr h2]
    · rw [n2]
      simp only [List.not_mem_nil, or_false]
      constructor
      · rintro ⟨e, he, h1, h2⟩
        obtain ⟨r, hr, rfl⟩ := entry e he
        simp only [Prod.mk.injEq] at h1 h2
        have hrn := (same r hr d hdm hcl).1 h1.2
        exact ⟨⟨r, hr, h1.1, hrn⟩, by rw [← h2, hrn]⟩
      · rintro ⟨⟨r, hr, h1, h2⟩, rfl⟩
        refine ⟨_, List.mem_map.2 ⟨r, hr, rfl⟩, ?_, h2⟩
        simp only [Prod.mk.injEq, hspan r hr h2]; exact ⟨h1, trivial⟩

end

/-- **C84.** A file that is read without an error has, on each line, a first field, which is empty if the line starts with
blanks, and three more, and every number in it was found.  (A line: after the start of the file or a newline, up to a
newline or the end of the file.) -/
theorem C84_read_partial {translate : List Char → Option (Option Ann)} {atof : List Char → Rat} {pow : Rat → Rat} {microsoft : Bool}
    {before line after : List Char} {l : Loaded} (h : load translate atof pow microsoft (before ++ line ++ after) = some l)
    (hok : l.ok = true) (hb : before = [] ∨ before.getLast? = some '\n') (hl : '\n' ∉ line)
    (ha : (after = [] ∧ line ≠ []) ∨ ∃ rest, after = '\n' :: rest) :
    ∃ topic iter docno level g1 g2 g3 g4, line = topic ++ g1 ++ iter ++ g2 ++ docno ++ g3 ++ level ++ g4 ∧
      (∀ c ∈ topic, isSpace c = false) ∧ Solid iter ∧ Solid docno ∧ Solid level ∧
      Gap g1 ∧ g1 ≠ [] ∧ Gap g2 ∧ g2 ≠ [] ∧ Gap g3 ∧ g3 ≠ [] ∧ Gap g4 ∧ ∃ a, translate docno = some (some a) := by
  have hmem : line ∈ Judge.lines (before ++ line ++ after) := by
    have h1 : line ∈ Judge.linesFrom [] (line ++ after) := by
      rcases ha with ⟨rfl, h0⟩ | ⟨rest, rfl⟩
      · have := Judge.lines_one hl h0
        unfold Judge.lines at this
        rw [List.append_nil, this]; simp
      · have := Judge.lines_cons hl rest
        unfold Judge.lines at this
        rw [this]; simp
    rw [List.append_assoc]
    rcases hb with rfl | hb
    · exact h1
    · unfold Judge.lines
      rw [Judge.linesFrom_append _ _ _ hb]
      exact List.mem_append.2 (.inr h1)
  unfold load at h
  split at h
  · cases h
  · rename_i es ok hr
    simp only [Option.some.injEq] at h
    subst h
    simp only at hok
    subst hok
    obtain ⟨topic, iter, docno, level, a, hf, ht⟩ := Judge.readLines_ok hr line hmem
    unfold Judge.fields at hf
    obtain ⟨t, r1, fs, e1, p1, e2, a1⟩ := Judge.fieldsFrom_piece line true [] (.inl rfl)
    rw [hf] at e2
    obtain ⟨et, rfl⟩ := List.cons.inj e2
    rw [List.nil_append] at et
    subst et
    obtain ⟨g1, r2, rfl, n1, b1, s1, s1', a2⟩ := a1.next
    obtain ⟨g2, r3, rfl, n2, b2, s2, s2', a3⟩ := a2.next
    obtain ⟨g3, g4, rfl, n3, b3, s3, s3', a4⟩ := a3.next
    have b4 := a4.done
    have nl : ∀ g : List Char, (∀ c ∈ g, isSpace c = true) → (∀ c ∈ g, c ∈ line) → Gap g := fun g h1 h2 c hc =>
      ⟨h1 c hc, fun e => hl (by rw [← e]; exact h2 c hc)⟩
    refine ⟨topic, iter, docno, level, g1, g2, g3, g4, by rw [e1]; simp, p1, ⟨s1, s1'⟩, ⟨s2, s2'⟩, ⟨s3, s3'⟩,
      nl _ b1 ?_, n1, nl _ b2 ?_, n2, nl _ b3 ?_, n3, nl _ b4 ?_, a, ht⟩ <;>
    · intro c hc; rw [e1]; simp [hc]

/-- **C84 (violated).** Blanks before a row are taken for an empty topic: the file is refused. -/
theorem C84_leading {translate : List Char → Option (Option Ann)} {atof : List Char → Rat} {pow : Rat → Rat} {microsoft : Bool}
    {g line : List Char} {r : Row} (hg : Gap g) (h0 : g ≠ []) (hr : WritesRow line r) (after : List Char) :
    ∃ l, load translate atof pow microsoft (g ++ line ++ '\n' :: after) = some l ∧ l.ok = false := by
  have hn : '\n' ∉ g ++ line := by
    have := (row_newline hr).1
    have : '\n' ∉ g := fun h => (hg _ h).2 rfl
    simp_all
  have hf : Judge.fields (g ++ line) = [] :: Judge.fields line := by
    unfold Judge.fields
    rw [Judge.fieldsFrom_blank (fun c hc => (hg c hc).1) h0]
    obtain ⟨s1, _, _, _, g1, g2, g3, g4, k1, n1, _, _, _, _, _, rfl⟩ := hr
    simp only [List.append_assoc]
    rw [Judge.fieldsFrom_text s1.2 _ _ _ _ s1.1, Judge.fieldsFrom_text s1.2 _ _ _ _ s1.1,
      Judge.fieldsFrom_blank (fun c hc => (k1 c hc).1) n1, Judge.fieldsFrom_blank (fun c hc => (k1 c hc).1) n1]
  refine ⟨_, by unfold load; rw [Judge.lines_cons hn, Judge.readLines, hf, row_fields hr], rfl⟩

/-- **C84 (violated).** … and a line of three fields after blanks is accepted, for a topic without a name. -/
theorem C84_leading_three {translate : List Char → Option (Option Ann)} {atof : List Char → Rat}
    {g1 g2 g3 iter docno level : List Char} (h1 : Gap g1) (n1 : g1 ≠ []) (h2 : Gap g2) (n2 : g2 ≠ []) (h3 : Gap g3) (n3 : g3 ≠ [])
    (s1 : Solid iter) (s2 : Solid docno) (s3 : Solid level) {a : Ann} (ht : translate docno = some (some a)) :
    Judge.readLines translate atof [g1 ++ iter ++ g2 ++ docno ++ g3 ++ level] = some ([⟨[], docno, a, atof level⟩], true) := by
  have hf : Judge.fields (g1 ++ iter ++ g2 ++ docno ++ g3 ++ level) = [[], iter, docno, level] := by
    unfold Judge.fields
    simp only [List.append_assoc]
    rw [Judge.fieldsFrom_blank (fun c hc => (h1 c hc).1) n1, Judge.fieldsFrom_text s1.2 _ _ _ _ s1.1,
      Judge.fieldsFrom_blank (fun c hc => (h2 c hc).1) n2, Judge.fieldsFrom_text s2.2 _ _ _ _ s2.1,
      Judge.fieldsFrom_blank (fun c hc => (h3 c hc).1) n3]
    have := Judge.fieldsFrom_text s3.2 false true [] [] s3.1
    rw [List.append_nil] at this
    rw [this]; simp [Judge.fieldsFrom, s3.1]
  rw [Judge.readLines, hf]
  simp only [ht, Judge.readLines]

/-! ### the number in a text -/

/-- **C84 (partial).** The number of a document is found in its text: after blanks and perhaps the tag, perhaps in
quotes, up to the end of the text, a blank or the closing tag.  What is missing: numbers with a quote or a `<`, and
text straight after the closing tag (`C84_docno_quotes`, `C84_docno_glued`). -/
theorem C84_docno_partial {b1 b2 lead quote docno close rest : List Char} (h1 : ∀ c ∈ b1, isSpace c = true) (h2 : ∀ c ∈ b2, isSpace c = true)
    (hl : lead = [] ∨ lead = ['<', 'D', 'O', 'C', 'N', 'O', '>']) (hq : quote = [] ∨ quote = ['"'])
    (hd : docno ≠ []) (hd' : ∀ c ∈ docno, isSpace c = false ∧ c ≠ '<' ∧ c ≠ '"')
    (hc : close = [] ∨ close = ['<', '/', 'D', 'O', 'C', 'N', 'O', '>']) (hr : ∀ c cs, rest = c :: cs → isSpace c = true) :
    trecDocno (b1 ++ lead ++ b2 ++ quote ++ docno ++ quote ++ close ++ rest) = docno := by
  unfold trecDocno
  have ht : ∀ c ∈ quote ++ docno ++ quote, isSpace c = false ∧ c ≠ '<' := by
    intro c hc
    simp only [List.mem_append] at hc
    have hqc : c ∈ quote → isSpace c = false ∧ c ≠ '<' := by
      intro h
      rcases hq with rfl | rfl
      · simp at h
      · simp at h; subst h; exact ⟨by decide, by decide⟩
    rcases hc with (hc | hc) | hc
    · exact hqc hc
    · exact ⟨(hd' c hc).1, (hd' c hc).2.1⟩
    · exact hqc hc
  have hfil : (quote ++ docno ++ quote).filter (fun c => decide (c ≠ '"')) = docno := by
    have hqf : quote.filter (fun c => decide (c ≠ '"')) = [] := by rcases hq with rfl | rfl <;> decide
    rw [List.filter_append, List.filter_append, hqf, List.append_nil, List.nil_append, List.filter_eq_self]
    intro c hc; simpa using (hd' c hc).2.2
  have hclose : Judge.docnoLoop 0 true (close ++ rest) = [] := by
    rcases hc with rfl | rfl
    · exact Judge.docnoLoop_stop hr
    · exact (Judge.docnoLoop_end true rest).trans (Judge.docnoLoop_stop hr)
  have hmain : Judge.docnoLoop 0 false (b2 ++ (quote ++ docno ++ quote ++ (close ++ rest))) = docno := by
    rw [Judge.docnoLoop_blank b2 h2, Judge.docnoLoop_text _ ht false _ (by simp [hd]), hfil, hclose, List.append_nil]
  have e : b1 ++ lead ++ b2 ++ quote ++ docno ++ quote ++ close ++ rest =
      b1 ++ (lead ++ (b2 ++ (quote ++ docno ++ quote ++ (close ++ rest)))) := by simp
  rw [e, Judge.docnoLoop_blank b1 h1]
  rcases hl with rfl | rfl
  · exact hmain
  · exact (Judge.docnoLoop_start false _).trans hmain

/-- **C84 (violated).** Quotes within a number are dropped. -/
theorem C84_docno_quotes {docno : List Char} (hd : docno ≠ []) (hd' : ∀ c ∈ docno, isSpace c = false ∧ c ≠ '<') :
    trecDocno docno = docno.filter fun c => decide (c ≠ '"') := by
  have := Judge.docnoLoop_text docno hd' false [] hd
  rw [List.append_nil] at this
  unfold trecDocno
  rw [this]; simp [Judge.docnoLoop]

/-- **C84 (violated).** What follows the closing tag without a blank becomes part of the number. -/
theorem C84_docno_glued {docno more : List Char} (hd : docno ≠ []) (hd' : ∀ c ∈ docno, isSpace c = false ∧ c ≠ '<' ∧ c ≠ '"')
    (hm : more ≠ []) (hm' : ∀ c ∈ more, isSpace c = false ∧ c ≠ '<' ∧ c ≠ '"') :
    trecDocno (docno ++ ['<', '/', 'D', 'O', 'C', 'N', 'O', '>'] ++ more) = docno ++ more := by
  unfold trecDocno
  have f : ∀ {l : List Char}, (∀ c ∈ l, isSpace c = false ∧ c ≠ '<' ∧ c ≠ '"') → l.filter (fun c => decide (c ≠ '"')) = l := by
    intro l h; rw [List.filter_eq_self]; intro c hc; simpa using (h c hc).2.2
  rw [List.append_assoc, Judge.docnoLoop_text docno (fun c hc => ⟨(hd' c hc).1, (hd' c hc).2.1⟩) false _ hd, f hd']
  have e1 := Judge.docnoLoop_end true more
  have e2 := Judge.docnoLoop_text more (fun c hc => ⟨(hm' c hc).1, (hm' c hc).2.1⟩) true [] hm
  rw [List.append_nil, f hm'] at e2
  unfold Judge.endTag at e1
  rw [e1, e2]; simp [Judge.docnoLoop]

example : trecDocno ['\n', '<', 'D', 'O', 'C', 'N', 'O', '>', ' ', '"', 'F', 'T', '-', '1', '"', '<', '/', 'D', 'O', 'C', 'N', 'O', '>', '\n', 'x'] =
    ['F', 'T', '-', '1'] := by decide

/-! ### a case -/

/-- two documents at `[10, 12]` and `[20, 22]`, with the numbers `b c` at `[10, 11]` and `b` at `[20, 20]` -/
def numberShard : Store.Index := fun f =>
  if f = 97 then some { feature := 97, ps := [10, 20], qs := [12, 22] }
  else if f = 96 then some { feature := 96, ps := [10, 20], qs := [11, 20] }
  else if f = 98 then some { feature := 98, ps := [10, 20] }
  else if f = 99 then some { feature := 99, ps := [11] }
  else none

theorem numberShard_cases {P : Int → Store.Posting → Prop} (h1 : P 97 { feature := 97, ps := [10, 20], qs := [12, 22] })
    (h2 : P 96 { feature := 96, ps := [10, 20], qs := [11, 20] }) (h3 : P 98 { feature := 98, ps := [10, 20] })
    (h4 : P 99 { feature := 99, ps := [11] }) : ∀ f p, numberShard f = some p → P f p := by
  intro f p h
  unfold numberShard at h
  split at h
  · cases h; simp_all
  · split at h
    · cases h; simp_all
    · split at h
      · cases h; simp_all
      · split at h
        · cases h; simp_all
        · cases h

theorem numberShard_good : Store.GoodIx numberShard where
  ok := numberShard_cases ⟨.inr rfl, .inl rfl⟩ ⟨.inr rfl, .inl rfl⟩ ⟨.inl rfl, .inl rfl⟩ ⟨.inl rfl, .inl rfl⟩
  listing := by
    refine numberShard_cases ?_ ?_ ?_ ?_ <;> refine ⟨by decide, by decide⟩
  nonempty := numberShard_cases (by decide) (by decide) (by decide) (by decide)
  zero := numberShard_cases (by decide) (by decide) (by decide) (by decide)
  feature := numberShard_cases rfl rfl rfl rfl

def numberIndex : Index where
  shards := [numberShard]
  featurize := fun t => if t = [':'] then 97 else if t = ['#', 'd'] then 96 else if t = ['b'] then 98 else if t = ['c'] then 99 else 1
  good := by
    intro ix hix
    simp only [List.mem_cons, List.not_mem_nil, or_false] at hix
    subst hix
    exact numberShard_good

theorem numberIndex_solutions (t : List Char) (a : Ann) :
    numberIndex.solutions t a ↔ a ∈ Store.annsOf numberShard (numberIndex.featurize t) := by
  have hnone : ∀ b, ¬ Store.solutionsRaw numberIndex.shards Store.nullFeature b := by
    intro b hb
    obtain ⟨L, hL, haL⟩ := Store.unionL_mem hb
    simp only [numberIndex, List.map_cons, List.map_nil, List.mem_cons, List.not_mem_nil, or_false] at hL
    subst hL
    have : Store.annsOf numberShard Store.nullFeature = [] := rfl
    rw [this] at haL; simp at haL
  have hraw : ∀ f, Store.solutionsRaw numberIndex.shards f a ↔ a ∈ Store.annsOf numberShard f := by
    intro f
    unfold Store.solutionsRaw
    simp only [show numberIndex.shards = [numberShard] from rfl, List.map_cons, List.map_nil]
    rw [Store.unionL_single (numberShard_good.annsOf_listing _)]
  unfold Index.solutions Store.solutions
  split
  · exact hraw _
  · unfold notContainedIn
    rw [hraw]
    exact ⟨fun h => h.1, fun h => ⟨h, fun ⟨b, hb, _⟩ => hnone b hb⟩⟩

def numberDocs : List NumberedDoc := [⟨⟨10, 12, 0⟩, ⟨10, 11, 0⟩, ['b', '-', 'c']⟩, ⟨⟨20, 22, 0⟩, ⟨20, 20, 0⟩, ['b']⟩]

theorem numberQueries : QueriesOk letters [':'] ['#', 'd'] (.node .term [':'] 0 []) (.node .term ['#', 'd'] 0 []) where
  container := .word (.inl ⟨by decide, by decide, by decide⟩)
  identifier := .word (.inl ⟨by decide, by decide, by decide⟩)
  containerLegal := by rw [expandPhrases, if_neg (by simp), expandPhrasesL]; simp [Legal, LegalL, arityOk]
  identifierLegal := by rw [expandPhrases, if_neg (by simp), expandPhrasesL]; simp [Legal, LegalL, arityOk]

theorem letters_mem {x t : List Char} (h : t ∈ letters x) : t = ['b'] ∨ t = ['c'] := by
  simp only [letters, List.mem_map, List.mem_filter, decide_eq_true_eq] at h
  obtain ⟨c, ⟨_, rfl | rfl⟩, rfl⟩ := h
  · exact .inl rfl
  · exact .inr rfl

theorem numbers_ok : DocsNumbered numberIndex letters (.node .term [':'] 0 []) (.node .term ['#', 'd'] 0 []) numberDocs where
  spans := by
    intro a
    rw [expandPhrases, if_neg (by simp), expandPhrasesL, Paths.den_term, numberIndex_solutions]
    have : Store.annsOf numberShard (numberIndex.featurize [':']) = [⟨10, 12, 0⟩, ⟨20, 22, 0⟩] := rfl
    rw [this]
    simp [numberDocs, eq_comm]
  numbers := by
    intro a
    rw [expandPhrases, if_neg (by simp), expandPhrasesL, Paths.den_term, numberIndex_solutions]
    have : Store.annsOf numberShard (numberIndex.featurize ['#', 'd']) = [⟨10, 11, 0⟩, ⟨20, 20, 0⟩] := rfl
    rw [this]
    simp [numberDocs, eq_comm]
  within := by simp [numberDocs, inside]
  own := by simp [numberDocs, inside]
  size := by
    intro d hd
    simp only [numberDocs, List.mem_cons, List.not_mem_nil, or_false] at hd
    rcases hd with rfl | rfl <;> decide
  words := by
    intro d hd n hn x t ht
    have eb : Store.annsOf numberShard (numberIndex.featurize ['b']) = [⟨10, 10, 0⟩, ⟨20, 20, 0⟩] := rfl
    have ec : Store.annsOf numberShard (numberIndex.featurize ['c']) = [⟨11, 11, 0⟩] := rfl
    simp only [numberDocs, List.mem_cons, List.not_mem_nil, or_false] at hd
    rcases hd with rfl | rfl
    · have hl : letters ['b', '-', 'c'] = [['b'], ['c']] := by decide
      simp only [hl, List.length_cons, List.length_nil] at hn ⊢
      obtain rfl | rfl : n = 0 ∨ n = 1 := by omega
      all_goals
        rcases letters_mem ht with rfl | rfl <;> simp [numberIndex_solutions, eb, ec]
    · have hl : letters ['b'] = [['b']] := by decide
      simp only [hl, List.length_cons, List.length_nil] at hn ⊢
      obtain rfl : n = 0 := by omega
      rcases letters_mem ht with rfl | rfl <;> simp [numberIndex_solutions, eb, ec]

theorem canAsk_letters {x : List Char} (h1 : ∀ c ∈ x, c ≠ '"' ∧ c ≠ '\\' ∧ c ≠ '\x00') (h2 : letters x ≠ [])
    (h3 : (letters x).length ≤ 4294967295) : CanAsk numberIndex letters x where
  plain := h1
  some_char := by rintro rfl; exact h2 rfl
  some_word := h2
  few := h3
  good := by
    intro t ht
    rcases letters_mem ht with rfl | rfl
    · exact .inl ⟨'b', [], rfl, rfl, by decide⟩
    · exact .inl ⟨'c', [], rfl, rfl, by decide⟩
  points := by
    intro t ht a ha
    have eb : Store.annsOf numberShard (numberIndex.featurize ['b']) = [⟨10, 10, 0⟩, ⟨20, 20, 0⟩] := rfl
    have ec : Store.annsOf numberShard (numberIndex.featurize ['c']) = [⟨11, 11, 0⟩] := rfl
    rw [numberIndex_solutions] at ha
    rcases letters_mem ht with rfl | rfl
    · rw [eb] at ha; simp at ha; rcases ha with rfl | rfl <;> rfl
    · rw [ec] at ha; simp at ha; subst ha; rfl

/-- `b-c` finds its document -/
example (count : List Char → Int) :
    translateDocno numberIndex letters count [':'] (some ['#', 'd']) ['b', '-', 'c'] = some (some ⟨10, 12, 0⟩) :=
  C84_document_partial (d := ⟨⟨10, 12, 0⟩, ⟨10, 11, 0⟩, ['b', '-', 'c']⟩) count numberQueries numbers_ok (.head _)
    (canAsk_letters (by decide) (by decide) (by decide)) (by
      intro e he _
      simp only [numberDocs, List.mem_cons, List.not_mem_nil, or_false] at he
      rcases he with rfl | rfl <;> decide)

/-- `b` finds another document -/
example (count : List Char → Int) :
    ∃ a, translateDocno numberIndex letters count [':'] (some ['#', 'd']) ['b'] = some (some a) ∧ a ≠ ⟨20, 22, 0⟩ :=
  C84_longer (d := ⟨⟨20, 22, 0⟩, ⟨20, 20, 0⟩, ['b']⟩) (e := ⟨⟨10, 12, 0⟩, ⟨10, 11, 0⟩, ['b', '-', 'c']⟩) count numberQueries numbers_ok
    (.tail _ (.head _)) (.head _) (canAsk_letters (by decide) (by decide) (by decide)) ⟨[], [['c']], rfl⟩ (by decide)

/-- `c-b` is refused -/
example (count : List Char → Int) :
    translateDocno numberIndex letters count [':'] (some ['#', 'd']) ['c', '-', 'b'] = some none :=
  C84_unknown count numberQueries numbers_ok (canAsk_letters (by decide) (by decide) (by decide)) (by
    intro d hd
    simp only [numberDocs, List.mem_cons, List.not_mem_nil, or_false] at hd
    rcases hd with rfl | rfl <;> decide)

/-- a file, its second row without a newline -/
def someRows : List Row := [⟨['7'], ['0'], ['b', '-', 'c'], ['1']⟩, ⟨['7'], ['0'], ['b', '-', 'c'], ['2']⟩]

theorem someRows_written :
    WritesRows ['7', ' ', '0', '\t', 'b', '-', 'c', ' ', ' ', '1', '\r', '\n', '7', ' ', '0', ' ', 'b', '-', 'c', ' ', '2'] someRows := by
  have s : ∀ {l : List Char}, l ≠ [] → (∀ c ∈ l, isSpace c = false) → Solid l := fun h1 h2 => ⟨h1, h2⟩
  refine .cons (line := ['7', ' ', '0', '\t', 'b', '-', 'c', ' ', ' ', '1', '\r']) ⟨s (by decide) (by decide), s (by decide) (by decide),
    s (by decide) (by decide), s (by decide) (by decide), [' '], ['\t'], [' ', ' '], ['\r'], ?_, by decide, ?_, by decide, ?_, by decide, ?_, rfl⟩
    (.last ⟨s (by decide) (by decide), s (by decide) (by decide),
    s (by decide) (by decide), s (by decide) (by decide), [' '], [' '], [' '], [], ?_, by decide, ?_, by decide, ?_, by decide, ?_, rfl⟩) <;>
  · unfold Gap; decide

theorem someRows_names : Names letters numberDocs someRows numberIndex := by
  intro r hr
  have : r.docno = ['b', '-', 'c'] := by
    simp only [someRows, List.mem_cons, List.not_mem_nil, or_false] at hr
    rcases hr with rfl | rfl <;> rfl
  rw [this]
  refine ⟨canAsk_letters (by decide) (by decide) (by decide), _, .head _, rfl, ?_⟩
  intro e he _
  simp only [numberDocs, List.mem_cons, List.not_mem_nil, or_false] at he
  rcases he with rfl | rfl <;> decide

/-- the level of a single digit -/
def digitLevel (s : List Char) : Rat := match s with
  | [c] => (c.toNat : Rat) - 48
  | _ => 0

/-- the document at 10 is fully relevant to topic 7 -/
example (count : List Char → Int) :
    ∃ l, load (translateDocno numberIndex letters count [':'] (some ['#', 'd'])) digitLevel id false
        ['7', ' ', '0', '\t', 'b', '-', 'c', ' ', ' ', '1', '\r', '\n', '7', ' ', '0', ' ', 'b', '-', 'c', ' ', '2'] = some l ∧
      l.ok = true ∧ ((['7'], 10), some 1) ∈ l.qrels ∧ ((['7'], 10), 3) ∈ l.lengths := by
  have htop : TopRow digitLevel someRows 2 := by
    refine ⟨⟨_, .tail _ (.head _), by decide +kernel⟩, ?_⟩
    intro r hr
    simp only [someRows, List.mem_cons, List.not_mem_nil, or_false] at hr
    rcases hr with rfl | rfl <;> decide +kernel
  obtain ⟨l, h1, h2, -, -, -, -, h3⟩ := C84_file_partial count numberQueries numbers_ok digitLevel id someRows_written someRows_names htop (by decide +kernel)
  obtain ⟨k1, k2, -⟩ := h3 ⟨⟨10, 12, 0⟩, ⟨10, 11, 0⟩, ['b', '-', 'c']⟩ (.head _) (by
    intro e he _
    simp only [numberDocs, List.mem_cons, List.not_mem_nil, or_false] at he
    rcases he with rfl | rfl <;> decide) ['7']
  refine ⟨l, h1, h2, (k1 _).2 ⟨2, ⟨[someRows.head (by decide)], _, [], rfl, rfl, rfl, by decide +kernel, by simp⟩, by decide +kernel⟩,
    (k2 _).2 ⟨⟨_, .head _, rfl, rfl⟩, by decide⟩⟩

/-- the other hypotheses are met -/
example : Gap [' '] ∧ WritesRow ['7', ' ', '0', ' ', 'b', ' ', '1'] ⟨['7'], ['0'], ['b'], ['1']⟩ := by
  have s : ∀ {l : List Char}, l ≠ [] → (∀ c ∈ l, isSpace c = false) → Solid l := fun h1 h2 => ⟨h1, h2⟩
  refine ⟨by unfold Gap; decide, s (by decide) (by decide), s (by decide) (by decide), s (by decide) (by decide), s (by decide) (by decide),
    [' '], [' '], [' '], [], ?_, by decide, ?_, by decide, ?_, by decide, ?_, rfl⟩ <;>
  · unfold Gap; decide

end Verif.Props
