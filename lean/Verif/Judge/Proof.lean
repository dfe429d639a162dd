import Verif.Judge.Model
import Verif.Paths.Proof
/-
  What the query for a document's number finds, and how files of judgements are cut into fields.
-/
namespace Verif.Judge
open Verif.Hopper Verif.Gcl Verif.Props
open Verif.Paths (isSpace escape gclString escape_cons Worded den_path gclString_good slash)

/-! ### the query -/

theorem escape_id {s : List Char} (h : ∀ c ∈ s, c ≠ '"' ∧ c ≠ '\\') : escape s = s := by
  induction s with
  | nil => rfl
  | cons c cs ih =>
    obtain ⟨h1, h2⟩ := h c (by simp)
    rw [escape_cons, if_neg (by rintro (h | h) <;> contradiction), ih fun x hx => h x (by simp [hx])]
    rfl

/-- the tree of the query -/
def tree (c i : SExpr) (docno : List Char) : SExpr :=
  .node .containing [] 0 [c, .node .containing [] 0 [i, .node .term (gclString docno) 0 []]]

/-- a number that can be put into a query -/
def Plain (docno : List Char) : Prop := ∀ c ∈ docno, c ≠ '"' ∧ c ≠ '\\' ∧ c ≠ '\x00'

theorem gclString_plain {docno : List Char} (h : Plain docno) : gclString docno = '"' :: docno ++ ['"'] := by
  unfold gclString; rw [escape_id fun c hc => ⟨(h c hc).1, (h c hc).2.1⟩]

theorem query_writes {container identifier docno : List Char} {c i : SExpr} (hc : Writes container c) (hi : Writes identifier i)
    (h : Plain docno) : Writes (query container identifier docno) (tree c i docno) := by
  have hs : Space [' '] := by intro x hx; simp at hx; exact .inl hx
  have h0 : Space [] := by intro x hx; simp at hx
  have hw : Writes (gclString docno) (.node .term (gclString docno) 0 []) := by
    refine .word (.inr ⟨'"', by simp, docno, gclString_plain h, h⟩)
  have inner := Writes.op (k := .containing) (a := []) (name := ['>', '>']) h0 (by simp [names]) (by simp)
    (WritesL.cons hs (by simp) hi (WritesL.cons hs (by simp) hw (WritesL.nil h0))) (by simp [Takes]) (by simp)
  have outer := Writes.op (k := .containing) (a := []) (name := ['>', '>']) h0 (by simp [names]) (by simp)
    (WritesL.cons hs (by simp) hc (WritesL.cons hs (by simp) inner (WritesL.nil h0))) (by simp [Takes]) (by simp)
  have e : query container identifier docno = '(' :: [] ++ ['>', '>'] ++ ([' '] ++ container ++ ([' '] ++
      ('(' :: [] ++ ['>', '>'] ++ ([' '] ++ identifier ++ ([' '] ++ gclString docno ++ [])) ++ [')']) ++ [])) ++ [')'] := by
    rw [gclString_plain h]; simp [query]
  rw [e]
  exact outer

theorem writes_ne {s : List Char} {e : SExpr} (h : Writes s e) : s ≠ [] := by
  cases h with
  | word h =>
    rcases h with ⟨h, _⟩ | ⟨q, _, body, rfl, _⟩
    · exact h
    · simp
  | width => simp
  | op => simp

theorem expand_tree (split : List Char → List (List Char)) (c i : SExpr) (docno : List Char) :
    expandPhrases split '"' (tree c i docno) = .node .containing [] 0 [expandPhrases split '"' c,
      .node .containing [] 0 [expandPhrases split '"' i, expandPhrases split '"' (.node .term (gclString docno) 0 [])]] := by
  unfold tree
  rw [expandPhrases, if_neg (by simp), expandPhrasesL, expandPhrasesL, expandPhrasesL]
  rw [expandPhrases, if_neg (by simp), expandPhrasesL, expandPhrasesL, expandPhrasesL]

theorem den_containing {T : List Char → GC} (x y : SExpr) (a : Ann) :
    den T (.node .containing [] 0 [x, y]) a ↔ den T x a ∧ ∃ b, den T y b ∧ inside b a := by
  rw [den, denL, denL, denL]
  simp [opMeaning]

/-- what `translate_docno` answers, from what the query means -/
theorem translate_first (ix : Index) {split : List Char → List (List Char)} (count : List Char → Int)
    {container identifier docno : List Char} {c i : SExpr} (hc : Writes container c) (hi : Writes identifier i)
    (lc : Legal (expandPhrases split '"' c)) (li : Legal (expandPhrases split '"' i))
    (hp : Plain docno) (hf : (split docno).length ≤ 4294967295) (hg : ∀ t ∈ split docno, GoodTerm t) :
    ∃ r, translateDocno ix split count container (some identifier) docno = some r ∧
      ∀ S : GC, (∀ a, S a ↔ den ix.solutions (expandPhrases split '"' (tree c i docno)) a) →
      (∀ a, r = some a ↔ S a ∧ ∀ b, S b → a.p ≤ b.p) ∧ (r = none ↔ ∀ a, ¬ S a) := by
  have hl : Legal (expandPhrases split '"' (tree c i docno)) := by
    have ht : Legal (expandPhrases split '"' (.node .term (gclString docno) 0 [])) := by
      refine expand_legal _ (by simp [Legal, LegalL, arityOk]) ?_
      rw [SplitsOk, SplitsOkL]
      refine ⟨fun _ _ => ?_, trivial⟩
      have hd : ((gclString docno).drop 1).take ((gclString docno).length - 2) = docno := by
        rw [gclString_plain hp]; simp
      rw [hd]
      exact ⟨hg, hf⟩
    rw [expand_tree]
    simp only [Legal, LegalL, arityOk, List.length_cons, List.length_nil, and_true]
    exact ⟨by omega, lc, by omega, li, ht⟩
  obtain ⟨rest, hparse⟩ := C09_reads (query_writes hc hi hp)
  obtain ⟨H, c1, I, c2⟩ := compile_impl ix (some count) _ hl
  have w := den_wf ix.wf _ hl
  have hH : gclHopper ix split count (query container identifier docno) = some H := by
    unfold gclHopper; rw [hparse]; exact c1
  obtain ⟨r, s', g1, -, g2⟩ := c2.tau (minfinity + 1) (by constructor <;> decide) H.init c2.init
  have hT : translateDocno ix split count container (some identifier) docno =
      if r.p = maxfinity then some none else some (some r) := by
    unfold translateDocno
    rw [if_neg (writes_ne hc)]
    simp only [if_neg (writes_ne hi), hH, g1]
  rcases g2 with ⟨h1, -⟩ | ⟨-, h1, h2, h3⟩ | ⟨-, h1, rfl⟩
  · exact absurd h1 (by decide)
  · have := w.hi h1; have := w.le h1
    refine ⟨some r, by rw [hT, if_neg (by omega)], fun S hS => ⟨fun a => ?_, by simp; exact ⟨r, (hS r).2 h1⟩⟩⟩
    constructor
    · intro e; cases e
      refine ⟨(hS _).2 h1, fun b hb => h3 b ((hS b).1 hb) ?_⟩
      have := w.lo ((hS b).1 hb); omega
    · rintro ⟨k1, k2⟩
      have e1 := k2 r ((hS r).2 h1)
      have k1 := (hS a).1 k1
      have := w.lo k1
      have e2 := h3 a k1 (by omega)
      rw [w.uniq h1 k1 (by omega)]
  · have hnone : ∀ S : GC, (∀ a, S a ↔ den ix.solutions (expandPhrases split '"' (tree c i docno)) a) → ∀ a, ¬ S a := by
      intro S hS a ha
      have ha := (hS a).1 ha
      have := w.lo ha; have := h1 a ha
      omega
    refine ⟨none, by rw [hT, if_pos rfl], fun S hS => ⟨fun a => ?_, by simp; exact hnone S hS⟩⟩
    constructor
    · intro e; cases e
    · rintro ⟨k1, -⟩; exact absurd k1 (hnone S hS a)

/-! ### words in a row -/

theorem consecutive_prefix {T : List Char → GC} {words : List (List Char)} {at0 : Int} {ok : List Char → Prop}
    (h : ∀ n : Nat, n < words.length → ∀ t, ok t → ((∃ a, T t a ∧ a.p = at0 + n) ↔ words[n]? = some t)) :
    ∀ (ws : List (List Char)) (n : Nat), (∀ t ∈ ws, ok t) → n + ws.length ≤ words.length →
      (consecutive (ws.map T) (at0 + n) ↔ ws <+: words.drop n)
  | [], n, _, _ => by simp [consecutive]
  | t :: ws, n, ho, hn => by
    simp only [List.length_cons] at hn
    have ih := consecutive_prefix h ws (n + 1) (fun x hx => ho x (by simp [hx])) (by omega)
    rw [show at0 + ((n + 1 : Nat) : Int) = at0 + n + 1 by omega] at ih
    have hlt : n < words.length := by omega
    rw [List.map_cons, consecutive, h n hlt t (ho t (by simp)), ih, List.drop_eq_getElem_cons hlt, List.cons_prefix_cons,
      List.getElem?_eq_getElem hlt, Option.some.injEq]
    constructor
    · rintro ⟨h1, h2⟩; exact ⟨h1.symm, h2⟩
    · rintro ⟨h1, h2⟩; exact ⟨h1.symm, h2⟩

theorem infix_drop {α : Type} {a b : List α} : a <:+: b ↔ ∃ n, n + a.length ≤ b.length ∧ a <+: b.drop n := by
  constructor
  · rintro ⟨x, y, rfl⟩
    exact ⟨x.length, by simp, y, by simp [List.append_assoc]⟩
  · rintro ⟨n, -, y, h⟩
    exact ⟨b.take n, y, by rw [List.append_assoc, h, List.take_append_drop]⟩

theorem consecutive_infix {T : List Char → GC} {words : List (List Char)} {lo hi : Int} {ok : List Char → Prop}
    (hhi : hi = lo + words.length - 1)
    (h : ∀ n : Nat, n < words.length → ∀ t, ok t → ((∃ a, T t a ∧ a.p = lo + n) ↔ words[n]? = some t))
    {ws : List (List Char)} (ho : ∀ t ∈ ws, ok t) (hne : ws ≠ []) :
    (∃ p, lo ≤ p ∧ p + ws.length - 1 ≤ hi ∧ consecutive (ws.map T) p) ↔ ws <:+: words := by
  have := List.length_pos_iff.2 hne
  rw [infix_drop]
  constructor
  · rintro ⟨p, h1, h2, h3⟩
    have hn : (p - lo).toNat + ws.length ≤ words.length := by omega
    refine ⟨(p - lo).toNat, hn, (consecutive_prefix h ws _ ho hn).1 ?_⟩
    rw [show lo + ((p - lo).toNat : Int) = p by omega]; exact h3
  · rintro ⟨n, h1, h2⟩
    exact ⟨lo + n, by omega, by omega, (consecutive_prefix h ws n ho h1).2 h2⟩

/-! ### lines -/

theorem linesFrom_line (l : List Char) (hl : '\n' ∉ l) : ∀ (cur rest : List Char),
    linesFrom cur (l ++ '\n' :: rest) = (cur ++ l) :: linesFrom [] rest := by
  induction l with
  | nil => intro cur rest; simp [linesFrom]
  | cons c l ih =>
    intro cur rest
    have hc : c ≠ '\n' := fun e => hl (by simp [e])
    rw [List.cons_append, linesFrom, if_neg hc, ih (fun h => hl (by simp [h]))]
    simp

theorem linesFrom_last (l : List Char) (hl : '\n' ∉ l) : ∀ cur : List Char,
    linesFrom cur l = if cur ++ l = [] then [] else [cur ++ l] := by
  induction l with
  | nil => intro cur; simp [linesFrom]
  | cons c l ih =>
    intro cur
    have hc : c ≠ '\n' := fun e => hl (by simp [e])
    rw [linesFrom, if_neg hc, ih (fun h => hl (by simp [h]))]
    simp

theorem lines_cons {l : List Char} (hl : '\n' ∉ l) (rest : List Char) : lines (l ++ '\n' :: rest) = l :: lines rest :=
  linesFrom_line l hl [] rest

theorem lines_one {l : List Char} (hl : '\n' ∉ l) (h0 : l ≠ []) : lines l = [l] := by
  unfold lines; rw [linesFrom_last l hl, List.nil_append, if_neg h0]

/-! ### fields -/

theorem fieldsFrom_text {t : List Char} (ht : ∀ c ∈ t, isSpace c = false) : ∀ (first run : Bool) (cur rest : List Char), t ≠ [] →
    fieldsFrom first run cur (t ++ rest) = fieldsFrom first false (cur ++ t) rest := by
  induction t with
  | nil => intro _ _ _ _ h; exact absurd rfl h
  | cons c t ih =>
    intro first run cur rest _
    rw [List.cons_append, fieldsFrom, if_neg (by rw [ht c (by simp)]; simp)]
    by_cases h0 : t = []
    · subst h0; simp
    · rw [ih (fun x hx => ht x (by simp [hx])) _ _ _ _ h0]; simp

theorem fieldsFrom_run {b : List Char} (hb : ∀ c ∈ b, isSpace c = true) : ∀ rest : List Char,
    fieldsFrom false true [] (b ++ rest) = fieldsFrom false true [] rest := by
  induction b with
  | nil => intro _; rfl
  | cons c b ih =>
    intro rest
    rw [List.cons_append, fieldsFrom, if_pos (hb c (by simp)), if_pos rfl, ih fun x hx => hb x (by simp [hx])]

theorem fieldsFrom_blank {b : List Char} (hb : ∀ c ∈ b, isSpace c = true) (h0 : b ≠ []) (first : Bool) (cur rest : List Char) :
    fieldsFrom first false cur (b ++ rest) = cur :: fieldsFrom false true [] rest := by
  cases b with
  | nil => exact absurd rfl h0
  | cons c b =>
    rw [List.cons_append, fieldsFrom, if_pos (hb c (by simp)), if_neg (by simp), fieldsFrom_run fun x hx => hb x (by simp [hx])]

/-- a line that was cut: what follows a piece -/
def After (rest : List Char) (fs : List (List Char)) : Prop :=
  (rest = [] ∧ fs = []) ∨ ∃ c rest', rest = c :: rest' ∧ isSpace c = true ∧ fs = fieldsFrom false true [] rest'

theorem fieldsFrom_piece : ∀ (text : List Char) (first : Bool) (cur : List Char), (first = true ∨ cur ≠ []) →
    ∃ t rest fs, text = t ++ rest ∧ (∀ c ∈ t, isSpace c = false) ∧ fieldsFrom first false cur text = (cur ++ t) :: fs ∧ After rest fs
  | [], first, cur, h => ⟨[], [], [], rfl, by simp, by simp only [fieldsFrom]; rw [if_pos h]; simp, .inl ⟨rfl, rfl⟩⟩
  | c :: cs, first, cur, h => by
    rw [fieldsFrom]
    by_cases hc : isSpace c = true
    · rw [if_pos hc, if_neg (by simp)]
      exact ⟨[], c :: cs, _, rfl, by simp, by simp, .inr ⟨c, cs, rfl, hc, rfl⟩⟩
    · rw [if_neg hc]
      obtain ⟨t, rest, fs, h1, h2, h3, h4⟩ := fieldsFrom_piece cs first (cur ++ [c]) (.inr (by simp))
      refine ⟨c :: t, rest, fs, by rw [h1]; rfl, ?_, by rw [h3]; simp, h4⟩
      intro x hx
      rcases List.mem_cons.1 hx with rfl | hx
      · simpa using hc
      · exact h2 x hx

theorem fieldsFrom_next : ∀ (text : List Char),
    ((∀ c ∈ text, isSpace c = true) ∧ fieldsFrom false true [] text = []) ∨
    ∃ g t rest fs, text = g ++ t ++ rest ∧ (∀ c ∈ g, isSpace c = true) ∧ t ≠ [] ∧ (∀ c ∈ t, isSpace c = false) ∧
      fieldsFrom false true [] text = t :: fs ∧ After rest fs
  | [] => .inl ⟨by simp, by simp [fieldsFrom]⟩
  | c :: cs => by
    rw [fieldsFrom]
    by_cases hc : isSpace c = true
    · rw [if_pos hc, if_pos rfl]
      rcases fieldsFrom_next cs with ⟨h1, h2⟩ | ⟨g, t, rest, fs, h1, h2, h3, h4, h5, h6⟩
      · left; refine ⟨?_, h2⟩
        intro x hx
        rcases List.mem_cons.1 hx with rfl | hx
        · exact hc
        · exact h1 x hx
      · right; refine ⟨c :: g, t, rest, fs, by rw [h1]; simp, ?_, h3, h4, h5, h6⟩
        intro x hx
        rcases List.mem_cons.1 hx with rfl | hx
        · exact hc
        · exact h2 x hx
    · right
      rw [if_neg hc]
      obtain ⟨t, rest, fs, h1, h2, h3, h4⟩ := fieldsFrom_piece cs false ([] ++ [c]) (.inr (by simp))
      refine ⟨[], c :: t, rest, fs, by rw [h1]; simp, by simp, by simp, ?_, by rw [h3]; simp, h4⟩
      intro x hx
      rcases List.mem_cons.1 hx with rfl | hx
      · simpa using hc
      · exact h2 x hx

/-- the next piece of a line, if there is one -/
theorem After.next {rest : List Char} {f : List Char} {fs : List (List Char)} (h : After rest (f :: fs)) :
    ∃ g rest', rest = g ++ f ++ rest' ∧ g ≠ [] ∧ (∀ c ∈ g, isSpace c = true) ∧ f ≠ [] ∧ (∀ c ∈ f, isSpace c = false) ∧ After rest' fs := by
  rcases h with ⟨_, h⟩ | ⟨c, r, rfl, hc, h⟩
  · cases h
  · rcases fieldsFrom_next r with ⟨_, h2⟩ | ⟨g, t, rest', fs', h1, h2, h3, h4, h5, h6⟩
    · rw [h2] at h; cases h
    · rw [h5] at h
      obtain ⟨rfl, rfl⟩ := List.cons.inj h
      refine ⟨c :: g, rest', by rw [h1]; simp, by simp, ?_, h3, h4, h6⟩
      intro x hx
      rcases List.mem_cons.1 hx with rfl | hx
      · exact hc
      · exact h2 x hx

theorem After.done {rest : List Char} (h : After rest []) : ∀ c ∈ rest, isSpace c = true := by
  rcases h with ⟨rfl, _⟩ | ⟨c, r, rfl, hc, h⟩
  · simp
  · rcases fieldsFrom_next r with ⟨h2, _⟩ | ⟨g, t, rest', fs', h1, h2, h3, h4, h5, h6⟩
    · intro x hx
      rcases List.mem_cons.1 hx with rfl | hx
      · exact hc
      · exact h2 x hx
    · rw [h5] at h; cases h

theorem linesFrom_append : ∀ (before cur rest : List Char), before.getLast? = some '\n' →
    linesFrom cur (before ++ rest) = linesFrom cur before ++ linesFrom [] rest
  | [], _, _, h => by simp at h
  | [c], cur, rest, h => by
    simp at h; subst h
    simp [linesFrom]
  | c :: d :: before, cur, rest, h => by
    have h' : (d :: before).getLast? = some '\n' := by simpa [List.getLast?_cons_cons] using h
    rw [List.cons_append, linesFrom]
    rw [linesFrom]
    by_cases hc : c = '\n'
    · rw [if_pos hc, if_pos hc, linesFrom_append (d :: before) [] rest h']; rfl
    · rw [if_neg hc, if_neg hc, linesFrom_append (d :: before) (cur ++ [c]) rest h']

theorem readLines_ok {translate : List Char → Option (Option Ann)} {atof : List Char → Rat} : ∀ {ls : List (List Char)} {es : List Entry},
    readLines translate atof ls = some (es, true) →
    ∀ l ∈ ls, ∃ topic iter docno level a, fields l = [topic, iter, docno, level] ∧ translate docno = some (some a)
  | [], _, _ => by simp
  | line :: rest, es, h => by
    intro l hl
    rw [readLines] at h
    split at h
    · rename_i topic iter docno level hf
      split at h
      · cases h
      · simp at h
      · rename_i doc ht
        split at h
        · cases h
        · rename_i es' ok hr
          simp only [Option.some.injEq, Prod.mk.injEq] at h
          obtain ⟨_, rfl⟩ := h
          rcases List.mem_cons.1 hl with rfl | hl
          · exact ⟨topic, iter, docno, level, doc, hf, ht⟩
          · exact readLines_ok hr l hl
    · simp at h

/-! ### `trec_docno` -/

theorem not_start {c : Char} (h : c ≠ '<') (cs : List Char) : startTag.isPrefixOf (c :: cs) = false := by
  simp only [startTag, List.isPrefixOf, Bool.and_eq_false_iff]
  exact .inl (by simpa using fun e => h e.symm)

theorem not_end {c : Char} (h : c ≠ '<') (cs : List Char) : endTag.isPrefixOf (c :: cs) = false := by
  simp only [endTag, List.isPrefixOf, Bool.and_eq_false_iff]
  exact .inl (by simpa using fun e => h e.symm)

theorem docnoLoop_skip : ∀ (t : List Char) (started : Bool) (rest : List Char),
    docnoLoop t.length started (t ++ rest) = docnoLoop 0 started rest
  | [], _, _ => rfl
  | c :: t, started, rest => by
    rw [List.cons_append, List.length_cons, docnoLoop, docnoLoop_skip t]

theorem docnoLoop_start (started : Bool) (rest : List Char) : docnoLoop 0 started (startTag ++ rest) = docnoLoop 0 started rest := by
  show docnoLoop 0 started ('<' :: (['D', 'O', 'C', 'N', 'O', '>'] ++ rest)) = _
  rw [docnoLoop, if_pos (by simp [startTag])]
  exact docnoLoop_skip ['D', 'O', 'C', 'N', 'O', '>'] started rest

theorem docnoLoop_end (started : Bool) (rest : List Char) : docnoLoop 0 started (endTag ++ rest) = docnoLoop 0 started rest := by
  show docnoLoop 0 started ('<' :: (['/', 'D', 'O', 'C', 'N', 'O', '>'] ++ rest)) = _
  rw [docnoLoop, if_neg (by simp [startTag]), if_pos (by simp [endTag])]
  exact docnoLoop_skip ['/', 'D', 'O', 'C', 'N', 'O', '>'] started rest

theorem space_tag {c : Char} (h : isSpace c = true) : c ≠ '<' := by
  rintro rfl; exact absurd h (by decide)

theorem docnoLoop_blank : ∀ (b : List Char), (∀ c ∈ b, isSpace c = true) → ∀ rest, docnoLoop 0 false (b ++ rest) = docnoLoop 0 false rest
  | [], _, _ => rfl
  | c :: b, h, rest => by
    have hc := h c (by simp)
    rw [List.cons_append, docnoLoop, not_start (space_tag hc), not_end (space_tag hc), if_neg (by simp), if_neg (by simp), if_pos hc,
      if_neg (by simp), docnoLoop_blank b fun x hx => h x (by simp [hx])]

theorem docnoLoop_text : ∀ (t : List Char), (∀ c ∈ t, isSpace c = false ∧ c ≠ '<') → ∀ (started : Bool) (rest : List Char), t ≠ [] →
    docnoLoop 0 started (t ++ rest) = t.filter (fun c => decide (c ≠ '"')) ++ docnoLoop 0 true rest
  | [], _, _, _, h => absurd rfl h
  | c :: t, h, started, rest, _ => by
    obtain ⟨h1, h2⟩ := h c (by simp)
    have ih : docnoLoop 0 true (t ++ rest) = t.filter (fun c => decide (c ≠ '"')) ++ docnoLoop 0 true rest := by
      by_cases h0 : t = []
      · subst h0; rfl
      · exact docnoLoop_text t (fun x hx => h x (by simp [hx])) true rest h0
    rw [List.cons_append, docnoLoop, not_start h2, not_end h2, if_neg (by simp), if_neg (by simp), if_neg (by rw [h1]; simp), ih,
      List.filter_cons]
    by_cases hq : c = '"'
    · subst hq; simp
    · rw [if_pos hq, if_pos (by simpa using hq)]; rfl

theorem docnoLoop_stop {rest : List Char} (h : ∀ c cs, rest = c :: cs → isSpace c = true) : docnoLoop 0 true rest = [] := by
  cases rest with
  | nil => rfl
  | cons c cs =>
    have hc := h c cs rfl
    rw [docnoLoop, not_start (space_tag hc), not_end (space_tag hc), if_neg (by simp), if_neg (by simp), if_pos hc, if_pos rfl]

end Verif.Judge
