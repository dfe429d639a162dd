import Verif.RankTool.Model
import Verif.Judge.Proof
import Verif.Names.Proof
/-
  C93: the program that ranks a file of queries prints a run that says, for each topic, what the ranking is.
-/
namespace Verif.Props
open Verif.RankTool
open Verif.Paths (isSpace)
open Verif.Judge (trecDocno docnoLoop lines)
open Verif.Names (decimal)

/-! ### options -/

/-- **C93** (options): whichever options are given, in any order and in any of their spellings, each sets what it is for, the last one of a
kind counts, and what follows them is the name of the file and the pipeline. -/
theorem C93_options {as : List Text} {f : Options → Options} (h : AllWritten as f) (q p : Text) (ps : List Text) (hq : NotOption q) (o : Options) :
    options (as ++ q :: p :: ps) o = some (f o, q :: p :: ps) := by
  induction h generalizing o with
  | nil =>
    obtain ⟨h1, h2, h3, h4, h5, h6, h7, h8, h9⟩ := hq
    simp only [List.nil_append, id_eq]
    unfold options
    rw [if_neg (by simp [h1, h2])]
    simp only
    rw [if_neg (by simp [h3, h4]), if_neg (by simp [h5, h6]), if_neg (by simp [h7, h8, h9])]
  | cons hw _ ih =>
    cases hw with
    | verbose hf =>
      simp only [List.cons_append, List.nil_append]
      rw [options.eq_def]
      simp only
      rw [if_pos hf]
      exact ih _
    | threads hf hn =>
      next flag t n =>
      have hv : ¬(flag = minusV ∨ flag = verboseFlag) := by rcases hf with e | e <;> rw [e] <;> decide
      simp only [List.cons_append, List.nil_append]
      rw [options.eq_def]
      simp only
      rw [if_neg hv, if_pos hf, hn]
      exact ih _
    | burrow hf =>
      next flag t =>
      have hv : ¬(flag = minusV ∨ flag = verboseFlag) := by rcases hf with e | e <;> rw [e] <;> decide
      have ht : ¬(flag = minusT ∨ flag = threadsFlag) := by rcases hf with e | e <;> rw [e] <;> decide
      simp only [List.cons_append, List.nil_append]
      rw [options.eq_def]
      simp only
      rw [if_neg hv, if_neg ht, if_pos hf]
      exact ih _
    | named hf hc =>
      next flag t =>
      have hv : ¬(flag = minusV ∨ flag = verboseFlag) := by rcases hf with e | e | e <;> rw [e] <;> decide
      have ht : ¬(flag = minusT ∨ flag = threadsFlag) := by rcases hf with e | e | e <;> rw [e] <;> decide
      have hb : ¬(flag = minusB ∨ flag = burrowFlag) := by rcases hf with e | e | e <;> rw [e] <;> decide
      simp only [List.cons_append, List.nil_append]
      rw [options.eq_def]
      simp only
      rw [if_neg hv, if_neg ht, if_neg hb, if_pos hf]
      unfold statistics
      rw [if_neg hc]
      exact ih _
    | recipe hf hc =>
      next flag name recipe =>
      have hv : ¬(flag = minusV ∨ flag = verboseFlag) := by rcases hf with e | e | e <;> rw [e] <;> decide
      have ht : ¬(flag = minusT ∨ flag = threadsFlag) := by rcases hf with e | e | e <;> rw [e] <;> decide
      have hb : ¬(flag = minusB ∨ flag = burrowFlag) := by rcases hf with e | e | e <;> rw [e] <;> decide
      simp only [List.cons_append, List.nil_append]
      rw [options.eq_def]
      simp only
      rw [if_neg hv, if_neg ht, if_neg hb, if_pos hf]
      have hall : ∀ x ∈ name, (x != ':') = true := by
        intro x hx
        have : x ≠ ':' := fun e => hc (e ▸ hx)
        simpa using this
      have e : statistics (name ++ ':' :: recipe) o = { o with statsName := name, statsRecipe := recipe } := by
        unfold statistics
        rw [if_pos (by simp), List.takeWhile_append_of_pos hall, List.dropWhile_append_of_pos hall, List.takeWhile_cons_of_neg (by simp),
          List.dropWhile_cons_of_neg (by simp)]
        simp
      rw [e]
      exact ih _

theorem decimal_facts (n : Nat) : digitsValue (decimal n) = n ∧ decimal n ≠ [] ∧ ∀ c ∈ decimal n, Verif.RankTool.isDigit c = true := by
  induction n using Nat.strongRecOn with
  | ind n ih =>
    have hd : ∀ d : Fin 10, Verif.RankTool.isDigit (Char.ofNat (48 + d.val)) = true ∧ (Char.ofNat (48 + d.val)).toNat = 48 + d.val := by decide
    rw [decimal]
    split
    · next h =>
      have := hd ⟨n, h⟩
      simp only at this
      refine ⟨?_, by simp, by simp [this.1]⟩
      simp only [digitsValue, List.foldl_cons, List.foldl_nil, this.2]
      omega
    · next h =>
      obtain ⟨h1, h2, h3⟩ := ih (n / 10) (by omega)
      have := hd ⟨n % 10, Nat.mod_lt _ (by omega)⟩
      simp only at this
      refine ⟨?_, by simp, ?_⟩
      · unfold digitsValue at h1 ⊢
        rw [List.foldl_append, h1]
        simp only [List.foldl_cons, List.foldl_nil, this.2]
        omega
      · intro c hc
        rcases List.mem_append.1 hc with hc | hc
        · exact h3 c hc
        · rw [List.mem_singleton.1 hc]; exact this.1

theorem digit_plain {c : Char} (h : Verif.RankTool.isDigit c = true) : isSpace c = false ∧ c ≠ '-' ∧ c ≠ '+' := by
  simp only [Verif.RankTool.isDigit, Bool.and_eq_true, decide_eq_true_eq] at h
  have key : ∀ d : Char, d.toNat < 48 → c ≠ d := by rintro d hd rfl; omega
  refine ⟨?_, key '-' (by decide), key '+' (by decide)⟩
  simp only [isSpace, Bool.or_eq_false_iff, beq_eq_false_iff_ne]
  exact ⟨⟨⟨⟨⟨key ' ' (by decide), key '\t' (by decide)⟩, key '\n' (by decide)⟩, key '\x0b' (by decide)⟩, key '\x0c' (by decide)⟩, key '\r' (by decide)⟩

/-- **C93** (threads): a number of threads is read as it is written -/
theorem C93_threads (n : Nat) (h : n < 2 ^ 64) : threadCount (decimal n) = some n := by
  obtain ⟨h1, h2, h3⟩ := decimal_facts n
  cases hd : decimal n with
  | nil => exact absurd hd h2
  | cons c cs =>
    rw [hd] at h1 h3
    have hc := digit_plain (h3 c (by simp))
    unfold threadCount
    have e1 : ((c :: cs).isEmpty || (c :: cs).head? == some '-') = false := by simp [hc.2.1]
    have e2 : (c :: cs).dropWhile isSpace = c :: cs := List.dropWhile_cons_of_neg (by simp [hc.1])
    have e3 : ((c :: cs).head? == some '-') = false := by simp [hc.2.1]
    have e4 : ((c :: cs).head? == some '+') = false := by simp [hc.2.2]
    have e5 : (c :: cs).all Verif.RankTool.isDigit = true := List.all_eq_true.2 h3
    simp only [e2, e3, e4, e5, h1, Bool.false_eq_true, if_false, Bool.or_self, List.isEmpty_cons, Bool.not_true]
    rw [if_neg (by omega)]

/-- **A negative number of threads is refused, but not with a blank before it**: then it is one of the largest there are. -/
theorem C93_negative : threadCount ['-', '1'] = none ∧ threadCount [' ', '-', '1'] = some 18446744073709551615 := by decide

/-! ### queries -/

/-- a line: a topic, a separator, and a query -/
structure Query where
  topic : Text
  sep : Char
  text : Text

/-- as the program wants it: with a tab, or with a blank and without a tab -/
def Query.Good (q : Query) : Prop :=
  q.topic ≠ [] ∧ '\n' ∉ q.topic ∧ '\n' ∉ q.text ∧
    ((q.sep = '\t' ∧ '\t' ∉ q.topic) ∨ (q.sep = ' ' ∧ ' ' ∉ q.topic ∧ '\t' ∉ q.topic ∧ '\t' ∉ q.text))

def queriesText (qs : List Query) : Text := qs.flatMap fun q => q.topic ++ q.sep :: (q.text ++ ['\n'])

theorem split_at {topic text : Text} {sep : Char} (h0 : topic ≠ []) (hs : sep ∉ topic)
    (ht : (if '\t' ∈ topic ++ sep :: text then '\t' else ' ') = sep) : splitQuery (topic ++ sep :: text) = some (topic, sep :: text) := by
  have hall : ∀ x ∈ topic, (x != sep) = true := by
    intro x hx
    have : x ≠ sep := fun e => hs (e ▸ hx)
    simpa using this
  unfold splitQuery
  simp only [ht]
  rw [if_neg (by simp), List.takeWhile_append_of_pos hall, List.dropWhile_append_of_pos hall, List.takeWhile_cons_of_neg (by simp),
    List.dropWhile_cons_of_neg (by simp), List.append_nil]
  rw [if_neg (by simp [h0])]

theorem split_good {q : Query} (h : q.Good) : splitQuery (q.topic ++ q.sep :: q.text) = some (q.topic, q.sep :: q.text) := by
  obtain ⟨h0, -, -, h⟩ := h
  rcases h with ⟨e, h⟩ | ⟨e, h1, h2, h3⟩
  · exact split_at h0 (e ▸ h) (by rw [if_pos (by simp [e]), e])
  · refine split_at h0 (e ▸ h1) ?_
    rw [if_neg (by simp [e, h2, h3]), e]

theorem lines_queries : ∀ (qs : List Query), (∀ q ∈ qs, q.Good) → ∀ rest, lines (queriesText qs ++ rest) = (qs.map fun q => q.topic ++ q.sep :: q.text) ++ lines rest := by
  intro qs
  induction qs with
  | nil => intro _ rest; rfl
  | cons q qs ih =>
    intro h rest
    obtain ⟨h0, h1, h2, h3⟩ := h q (by simp)
    have e : queriesText (q :: qs) ++ rest = (q.topic ++ q.sep :: q.text) ++ '\n' :: (queriesText qs ++ rest) := by
      simp [queriesText]
    have hn : '\n' ∉ q.topic ++ q.sep :: q.text := by
      have : q.sep ≠ '\n' := by rcases h3 with ⟨e, -⟩ | ⟨e, -⟩ <;> rw [e] <;> decide
      simp [h1, h2, Ne.symm this]
    rw [e, Verif.Judge.lines_cons hn, ih (fun x hx => h x (by simp [hx]))]
    rfl

theorem read_queries : ∀ (qs : List Query), (∀ q ∈ qs, q.Good) → readQueries (qs.map fun q => q.topic ++ q.sep :: q.text) = some (qs.map fun q => (q.topic, q.sep :: q.text)) := by
  intro qs
  induction qs with
  | nil => intro _; rfl
  | cons q qs ih =>
    intro h
    simp only [List.map_cons, readQueries, split_good (h q (by simp)), ih (fun x hx => h x (by simp [hx]))]

theorem queryOf_unique {qs : List (Text × Text)} (hd : (qs.map (·.1)).Nodup) {t q : Text} (h : (t, q) ∈ qs) : queryOf qs t = q := by
  unfold queryOf
  cases hf : qs.reverse.find? fun x => x.1 == t with
  | none =>
    rw [List.find?_eq_none] at hf
    exact absurd (hf (t, q) (by simpa using h)) (by simp)
  | some x =>
    have h1 := List.find?_some hf
    have h2 := List.mem_of_find?_eq_some hf
    rw [List.mem_reverse] at h2
    simp only [beq_iff_eq] at h1
    obtain ⟨a, b⟩ := x
    simp only at h1
    subst h1
    have key : ∀ (l : List (Text × Text)), (l.map (·.1)).Nodup → ∀ {k v v' : Text}, (k, v) ∈ l → (k, v') ∈ l → v = v' := by
      intro l
      induction l with
      | nil => intro _ k v v' h; cases h
      | cons x l ih =>
        intro hn k v v' h h'
        simp only [List.map_cons, List.nodup_cons, List.mem_map, not_exists, not_and] at hn
        rcases List.mem_cons.1 h with h1 | h1 <;> rcases List.mem_cons.1 h' with h2 | h2
        · rw [← h1] at h2; cases h2; rfl
        · exact absurd (congrArg Prod.fst h1) (hn.1 (k, v') h2)
        · exact absurd (congrArg Prod.fst h2) (hn.1 (k, v) h1)
        · exact ih hn.2 h1 h2
    simp only [Option.map_some, Option.getD_some]
    exact key qs hd h2 h

/-! ### lines of the run -/

theorem wordsFrom_word {w : Text} (hw : ∀ c ∈ w, isSpace c = false) : ∀ (cur rest : Text), wordsFrom cur (w ++ rest) = wordsFrom (cur ++ w) rest := by
  induction w with
  | nil => intro cur rest; simp
  | cons c w ih =>
    intro cur rest
    simp only [List.cons_append, wordsFrom]
    rw [if_neg (by simp [hw c (by simp)]), ih (fun x hx => hw x (by simp [hx]))]
    simp

theorem words_cons {w : Text} (h : IsWord w) (rest : Text) : wordsOf (w ++ ' ' :: rest) = w :: wordsOf rest := by
  unfold wordsOf
  rw [wordsFrom_word h.2, List.nil_append]
  simp only [wordsFrom]
  rw [if_pos (by decide), if_neg (by simp [h.1])]

theorem words_one {w : Text} (h : IsWord w) : wordsOf w = [w] := by
  have := wordsFrom_word h.2 [] []
  unfold wordsOf
  rw [List.append_nil, List.nil_append] at this
  rw [this]
  simp [wordsFrom, h.1]

theorem decimal_word (n : Nat) : IsWord (decimal n) := ⟨(decimal_facts n).2.1, fun c hc => (digit_plain ((decimal_facts n).2.2 c hc)).1⟩

theorem docno_plain : ∀ (t : Text) (skip : Nat) (started : Bool), ∀ c ∈ docnoLoop skip started t, isSpace c = false := by
  intro t
  induction t with
  | nil => intro skip started c hc; simp [docnoLoop] at hc
  | cons x t ih =>
    intro skip started c hc
    cases skip with
    | succ skip => exact ih skip started c (by simpa only [docnoLoop] using hc)
    | zero =>
      simp only [docnoLoop] at hc
      split at hc
      · exact ih _ _ c hc
      · split at hc
        · exact ih _ _ c hc
        · split at hc
          · split at hc
            · simp at hc
            · exact ih _ _ c hc
          · next hs =>
            split at hc
            · rcases List.mem_cons.1 hc with rfl | hc
              · simpa using hs
              · exact ih _ _ c hc
            · exact ih _ _ c hc

def q0 : Text := ['Q', '0']
def fakeName : Text := ['F', 'A', 'K', 'E']
def runName : Text := ['c', 'o', 't', 't', 'o', 'n', 't', 'a', 'i', 'l']

theorem words_result {topic name : Text} (ht : IsWord topic) (hn : trecDocno name ≠ []) (rank score : Nat) :
    wordsOf (resultLine topic name rank score) = [topic, q0, trecDocno name, decimal rank, decimal score, runName] := by
  have hd : IsWord (trecDocno name) := ⟨hn, docno_plain _ _ _⟩
  have e : resultLine topic name rank score = topic ++ ' ' :: (q0 ++ ' ' :: (trecDocno name ++ ' ' :: (decimal rank ++ ' ' :: (decimal score ++ ' ' :: runName)))) := by
    simp [resultLine, q0, runName]
  rw [e, words_cons ht, words_cons (by unfold IsWord; decide), words_cons hd, words_cons (decimal_word _), words_cons (decimal_word _), words_one (by unfold IsWord; decide)]

theorem words_fake {topic : Text} (ht : IsWord topic) : wordsOf (fakeLine topic) = [topic, q0, fakeName, ['1'], ['1'], runName] := by
  have e : fakeLine topic = topic ++ ' ' :: (q0 ++ ' ' :: (fakeName ++ ' ' :: (['1'] ++ ' ' :: (['1'] ++ ' ' :: runName)))) := by
    simp [fakeLine, q0, fakeName, runName]
  rw [e, words_cons ht, words_cons (by unfold IsWord; decide), words_cons (by unfold IsWord; decide), words_cons (by unfold IsWord; decide), words_cons (by unfold IsWord; decide), words_one (by unfold IsWord; decide)]

/-- the fields of the lines for a topic: its names in order, ranks from 1 and scores that go down to 1 -/
def entries (topic : Text) (names : List Text) : List (List Text) :=
  if names = [] then [[topic, q0, fakeName, ['1'], ['1'], runName]]
  else names.zipIdx.map fun x => [topic, q0, trecDocno x.1, decimal (x.2 + 1), decimal (names.length - x.2), runName]

theorem words_results {topic : Text} (ht : IsWord topic) (n : Nat) : ∀ (names : List Text) (i : Nat), (∀ x ∈ names, trecDocno x ≠ []) →
    (resultLines topic n i names).map wordsOf = (names.zipIdx i).map fun x => [topic, q0, trecDocno x.1, decimal (x.2 + 1), decimal (n - x.2), runName] := by
  intro names
  induction names with
  | nil => intro i _; rfl
  | cons d ds ih =>
    intro i h
    simp only [resultLines, List.map_cons, List.zipIdx_cons, words_result ht (h d (by simp)), ih (i + 1) (fun x hx => h x (by simp [hx]))]
    have : n + 1 - (i + 1) = n - i := by omega
    rw [this]

theorem words_block {topic : Text} (ht : IsWord topic) (names : List Text) (h : ∀ x ∈ names, trecDocno x ≠ []) :
    (block topic names).map wordsOf = entries topic names := by
  unfold block entries
  cases names with
  | nil => simp [words_fake ht]
  | cons d ds =>
    rw [if_neg (by simp), if_neg (by simp)]
    exact words_results ht _ _ 0 h

/-- **C93, partial.**  For every file of queries, each on a line of its own, with different topics that are words, and every ranking whose
passages have names: the program prints, for each topic in the order of the file, a line for each name that the ranking of its query gives, in
this order, and nothing else; read as fields, a line has the topic, the name, the rank, counted from 1, and a score that is greater
than all those after it.  A topic without results has one line with the name `FAKE`.  Missing: topics with blanks (`C93_blank_topic`), passages without
a name (`C93_nameless`), topics that are there twice (`C93_repeated`). -/
theorem C93_run_partial (qs : List Query) (hg : ∀ q ∈ qs, q.Good) (hd : (qs.map (·.topic)).Nodup) (hw : ∀ q ∈ qs, IsWord q.topic) (r : Text → List Text)
    (hn : ∀ q ∈ qs, ∀ x ∈ r (q.sep :: q.text), trecDocno x ≠ []) :
    ∃ out, run (queriesText qs) (some r) = some out ∧ out.map wordsOf = qs.flatMap fun q => entries q.topic (r (q.sep :: q.text)) := by
  have h1 := lines_queries qs hg []
  rw [List.append_nil] at h1
  have h1' : lines (queriesText qs) = qs.map fun q => q.topic ++ q.sep :: q.text := by rw [h1]; simp [lines, Verif.Judge.linesFrom]
  refine ⟨_, by unfold run; rw [h1', read_queries qs hg], ?_⟩
  rw [List.map_flatMap, List.flatMap_map]
  simp only [List.flatMap_def]
  congr 1
  apply List.map_congr_left
  intro q hq
  have e : queryOf (qs.map fun q => (q.topic, q.sep :: q.text)) q.topic = q.sep :: q.text :=
    queryOf_unique (by rw [List.map_map]; exact hd) (List.mem_map.2 ⟨q, hq, rfl⟩)
  simp only [e]
  exact words_block (hw q hq) _ (hn q hq)

/-- **C93** (refusals): a line without a tab and without a blank, or one that begins with its separator, is refused: nothing is printed, whatever
the other lines are; nor is there anything when the ranking fails -/
theorem C93_refused (qs : List Query) (hg : ∀ q ∈ qs, q.Good) (line rest : Text) (hl : '\n' ∉ line)
    (hb : ('\t' ∉ line ∧ ' ' ∉ line) ∨ line.head? = some '\t' ∨ ('\t' ∉ line ∧ line.head? = some ' ')) (rank : Option (Text → List Text)) :
    run (queriesText qs ++ line ++ '\n' :: rest) rank = none ∧ ∀ file, run file none = none := by
  have hs : splitQuery line = none := by
    unfold splitQuery
    rcases hb with ⟨h1, h2⟩ | h | ⟨h1, h2⟩
    · simp [h1, h2]
    · cases line with
      | nil => cases h
      | cons c cs =>
        simp only [List.head?_cons, Option.some.injEq] at h
        subst h
        simp
    · cases line with
      | nil => cases h2
      | cons c cs =>
        simp only [List.head?_cons, Option.some.injEq] at h2
        subst h2
        simp only [if_neg h1]
        simp
  refine ⟨?_, ?_⟩
  · have e : lines (queriesText qs ++ line ++ '\n' :: rest) = (qs.map fun q => q.topic ++ q.sep :: q.text) ++ line :: lines rest := by
      rw [List.append_assoc, lines_queries qs hg, Verif.Judge.lines_cons hl]
    have : ∀ (ls more : List Text), readQueries (ls ++ line :: more) = none := by
      intro ls
      induction ls with
      | nil => intro more; simp only [List.nil_append, readQueries, hs]
      | cons l ls ih =>
        intro more
        simp only [List.cons_append, readQueries, ih more]
        cases splitQuery l <;> rfl
    unfold run
    rw [e, this]
  · intro file
    unfold run
    cases readQueries (lines file) <;> rfl

/-- **The claim is false for a topic with a blank**, which a line with a tab may have: its lines have a field too many, and the name is not where it should be. -/
theorem C93_blank_topic (a b name : Text) (ha : IsWord a) (hb : IsWord b) (hn : trecDocno name ≠ []) (rank score : Nat) (text : Text) :
    splitQuery (a ++ ' ' :: b ++ '\t' :: text) = some (a ++ ' ' :: b, '\t' :: text)
    ∧ wordsOf (resultLine (a ++ ' ' :: b) name rank score) = [a, b, q0, trecDocno name, decimal rank, decimal score, runName] := by
  refine ⟨?_, ?_⟩
  · have hno : ∀ {w : Text}, IsWord w → '\t' ∉ w := fun h hm => by have := h.2 _ hm; exact absurd this (by decide)
    exact split_at (by simp) (by simp [hno ha, hno hb]) (by rw [if_pos (by simp)])
  · have e : resultLine (a ++ ' ' :: b) name rank score = a ++ ' ' :: resultLine b name rank score := by simp [resultLine]
    rw [e, words_cons ha, words_result hb hn]

/-- **The claim is false for a passage without a name** (whose identifier is empty, or only quotes): its lines have a field too few. -/
theorem C93_nameless (topic name : Text) (ht : IsWord topic) (hn : trecDocno name = []) (rank score : Nat) :
    wordsOf (resultLine topic name rank score) = [topic, q0, decimal rank, decimal score, runName] := by
  have e : resultLine topic name rank score = topic ++ ' ' :: (q0 ++ ' ' :: (' ' :: (decimal rank ++ ' ' :: (decimal score ++ ' ' :: runName)))) := by
    simp [resultLine, q0, runName, hn]
  rw [e, words_cons ht, words_cons (by unfold IsWord; decide)]
  have : ∀ t, wordsOf (' ' :: t) = wordsOf t := fun t => by simp [wordsOf, wordsFrom, isSpace]
  rw [this, words_cons (decimal_word _), words_cons (decimal_word _), words_one (by unfold IsWord; decide)]

/-- **The claim is false for a topic that is there twice**: both times its lines are those of the last query. -/
theorem C93_repeated (t x y : Text) (h0 : IsWord t) (hx : '\n' ∉ x) (hy : '\n' ∉ y) (r : Text → List Text) :
    run (queriesText [⟨t, '\t', x⟩, ⟨t, '\t', y⟩]) (some r) = some (block t (r ('\t' :: y)) ++ block t (r ('\t' :: y))) := by
  have hno : '\t' ∉ t := fun hm => by have := h0.2 _ hm; exact absurd this (by decide)
  have hno' : '\n' ∉ t := fun hm => by have := h0.2 _ hm; exact absurd this (by decide)
  have hg : ∀ q ∈ [(⟨t, '\t', x⟩ : Query), ⟨t, '\t', y⟩], q.Good := by
    intro q hq
    simp only [List.mem_cons, List.not_mem_nil, or_false] at hq
    rcases hq with rfl | rfl
    · exact ⟨h0.1, hno', hx, .inl ⟨rfl, hno⟩⟩
    · exact ⟨h0.1, hno', hy, .inl ⟨rfl, hno⟩⟩
  have h1 := lines_queries _ hg []
  rw [List.append_nil] at h1
  unfold run
  rw [h1]
  have e : lines [] = [] := by simp [lines, Verif.Judge.linesFrom]
  rw [e, List.append_nil, read_queries _ hg]
  have hq : queryOf [(t, '\t' :: x), (t, '\t' :: y)] t = '\t' :: y := by simp [queryOf]
  simp only [List.map_cons, List.map_nil, List.flatMap_cons, List.flatMap_nil, List.append_nil, hq]

theorem words_append : ∀ (a cur rest : Text), wordsFrom cur (a ++ ' ' :: rest) = wordsFrom cur a ++ wordsFrom [] rest := by
  intro a
  induction a with
  | nil =>
    intro cur rest
    simp only [List.nil_append, wordsFrom]
    rw [if_pos (by decide)]
    split <;> rfl
  | cons c a ih =>
    intro cur rest
    simp only [List.cons_append, wordsFrom]
    split
    · rw [ih]
      split <;> rfl
    · rw [ih]

/-- **C93** (pipeline): the words of the pipeline are those of the arguments after the file, in order, however they are divided into arguments -/
theorem C93_pipeline (ps : List Text) : wordsOf (pipelineOf ps) = ps.flatMap wordsOf := by
  induction ps with
  | nil => rfl
  | cons a as ih =>
    cases as with
    | nil => simp [pipelineOf]
    | cons b bs =>
      rw [List.flatMap_cons, ← ih]
      exact words_append a [] _

/-- **C93** (bad numbers): after any options, a number of threads that is none ends the program -/
theorem C93_bad_threads {as : List Text} {f : Options → Options} (h : AllWritten as f) (flag t : Text) (hf : flag = minusT ∨ flag = threadsFlag)
    (ht : threadCount t = none) (rest : List Text) (o : Options) : options (as ++ flag :: t :: rest) o = none := by
  induction h generalizing o with
  | nil =>
    have hv : ¬(flag = minusV ∨ flag = verboseFlag) := by rcases hf with e | e <;> rw [e] <;> decide
    rw [List.nil_append, options.eq_def]
    simp only
    rw [if_neg hv, if_pos hf, ht]
  | cons hw _ ih =>
    cases hw with
    | verbose hf' =>
      simp only [List.cons_append, List.nil_append]
      rw [options.eq_def]
      simp only
      rw [if_pos hf']
      exact ih _
    | threads hf' hn =>
      next g u n =>
      have hv : ¬(g = minusV ∨ g = verboseFlag) := by rcases hf' with e | e <;> rw [e] <;> decide
      simp only [List.cons_append, List.nil_append]
      rw [options.eq_def]
      simp only
      rw [if_neg hv, if_pos hf', hn]
      exact ih _
    | burrow hf' =>
      next g u =>
      have hv : ¬(g = minusV ∨ g = verboseFlag) := by rcases hf' with e | e <;> rw [e] <;> decide
      have hn : ¬(g = minusT ∨ g = threadsFlag) := by rcases hf' with e | e <;> rw [e] <;> decide
      simp only [List.cons_append, List.nil_append]
      rw [options.eq_def]
      simp only
      rw [if_neg hv, if_neg hn, if_pos hf']
      exact ih _
    | named hf' hc' =>
      next g u =>
      have hv : ¬(g = minusV ∨ g = verboseFlag) := by rcases hf' with e | e | e <;> rw [e] <;> decide
      have hn : ¬(g = minusT ∨ g = threadsFlag) := by rcases hf' with e | e | e <;> rw [e] <;> decide
      have hb : ¬(g = minusB ∨ g = burrowFlag) := by rcases hf' with e | e | e <;> rw [e] <;> decide
      simp only [List.cons_append, List.nil_append]
      rw [options.eq_def]
      simp only
      rw [if_neg hv, if_neg hn, if_neg hb, if_pos hf']
      exact ih _
    | recipe hf' hc' =>
      next g u v =>
      have hv : ¬(g = minusV ∨ g = verboseFlag) := by rcases hf' with e | e | e <;> rw [e] <;> decide
      have hn : ¬(g = minusT ∨ g = threadsFlag) := by rcases hf' with e | e | e <;> rw [e] <;> decide
      have hb : ¬(g = minusB ∨ g = burrowFlag) := by rcases hf' with e | e | e <;> rw [e] <;> decide
      simp only [List.cons_append, List.nil_append]
      rw [options.eq_def]
      simp only
      rw [if_neg hv, if_neg hn, if_neg hb, if_pos hf']
      exact ih _

example : options [['-', 'v'], ['-', 't'], ['4', 'x'], ['q']] defaults = none :=
  C93_bad_threads (.cons (.verbose (.inl rfl)) .nil) _ _ (.inl rfl) (by decide) _ _

/-! ### concrete cases -/

def twoQueries : List Query := [⟨['4', '0', '1'], ' ', ['r', 'e', 'd', ' ', 'c', 'a', 't']⟩, ⟨['4', '0', '2'], '\t', ['d', 'o', 'g']⟩]

def someRanking (q : Text) : List Text := if q = [' ', 'r', 'e', 'd', ' ', 'c', 'a', 't'] then [['A', '1', ' '], ['B', '2']] else []

theorem twoQueries_good : ∀ q ∈ twoQueries, q.Good := by
  intro q hq
  simp only [twoQueries, List.mem_cons, List.not_mem_nil, or_false] at hq
  rcases hq with rfl | rfl
  · exact ⟨by simp, by simp, by simp, .inr ⟨rfl, by simp, by simp, by simp⟩⟩
  · exact ⟨by simp, by simp, by simp, .inl ⟨rfl, by simp⟩⟩

example : ∃ out, run (queriesText twoQueries) (some someRanking) = some out ∧ out.map wordsOf =
    [[['4', '0', '1'], q0, ['A', '1'], decimal 1, decimal 2, runName], [['4', '0', '1'], q0, ['B', '2'], decimal 2, decimal 1, runName],
      [['4', '0', '2'], q0, fakeName, ['1'], ['1'], runName]] := by
  obtain ⟨out, h1, h2⟩ := C93_run_partial twoQueries twoQueries_good (by decide) (by unfold IsWord; decide) someRanking (by decide)
  exact ⟨out, h1, by rw [h2]; rfl⟩

example : options [['-', 'v'], ['-', 't'], ['4'], ['-', '-', 's', 't', 'a', 't', 's'], ['i', 'd', 'f', ':', 'x'], ['q'], ['b', 'm', '2', '5']] defaults
    = some (⟨true, 4, [], ['i', 'd', 'f'], ['x']⟩, [['q'], ['b', 'm', '2', '5']]) :=
  C93_options (.cons (.verbose (.inl rfl)) (.cons (.threads (n := 4) (.inl rfl) (by decide)) (.cons (.recipe (name := ['i', 'd', 'f']) (recipe := ['x']) (.inr (.inl rfl)) (by simp)) .nil)))
    ['q'] ['b', 'm', '2', '5'] [] (by unfold NotOption; decide) defaults

end Verif.Props
