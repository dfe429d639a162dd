import Verif.Pipe.Proof
/-
  C63: pipelines for ranking (`Ranker::from_pipeline` and `Ranker::rank`, src/ranker.cc).
-/
namespace Verif.Props
open Verif.Pipe
open Verif.Rank (Params rankerDefaults rankingParameter depthName)

/-! ### which pipelines are accepted -/

/-- **C63.** A pipeline is accepted just when it consists of words, with blanks between them and perhaps after the last, each of which says
what a stage does: and then those are its stages. -/
theorem C63_accepts (stof : Word → Option Rat) (drawn : Nat → Word → Rat) (text : List Char) (ss : List Stage) :
    fromPipeline stof drawn text = .ok ss ↔ ∃ ws, Written ws text ∧ SayAll stof drawn ws ss := by
  unfold fromPipeline
  rw [readStages_ok]
  constructor
  · intro h
    rcases cut_cases text with ⟨_, r, e⟩ | hw
    · rw [e] at h
      cases h with
      | cons h1 _ => exact absurd rfl (says_word h1)
    · exact ⟨_, hw, h⟩
  · rintro ⟨ws, h1, h2⟩
    rw [cut_of_written h1]
    exact h2

/-- **C63.** The error names the first word that says nothing; or it names nothing, when the pipeline is empty or begins with a blank. -/
theorem C63_refused (stof : Word → Option Rat) (drawn : Nat → Word → Rat) (text : List Char) (w : Word) :
    fromPipeline stof drawn text = .error w ↔
      (w = [] ∧ (text = [] ∨ ∃ c s, text = c :: s ∧ Blank c)) ∨
      ∃ before after ss, Written (before ++ w :: after) text ∧ SayAll stof drawn before ss ∧ ∀ s, ¬ Says stof (drawn before.length) w s := by
  unfold fromPipeline
  rw [readStages_error]
  constructor
  · rintro ⟨b, a, ss, e1, e2, e3⟩
    rcases cut_cases text with ⟨h1, r, e⟩ | hw
    · left
      rw [e] at e1
      cases b with
      | nil => simp only [List.nil_append, List.cons.injEq] at e1; exact ⟨e1.1.symm, h1⟩
      | cons u b =>
        simp only [List.cons_append, List.cons.injEq] at e1
        obtain ⟨rfl, _⟩ := e1
        cases e2 with
        | cons h _ => exact absurd rfl (says_word h)
    · right
      rw [e1] at hw
      exact ⟨b, a, ss, hw, e2, e3⟩
  · rintro (⟨rfl, h⟩ | ⟨b, a, ss, h1, h2, h3⟩)
    · have : ∃ r, cutStages text = [] :: r := by
        rcases h with rfl | ⟨c, s, rfl, hc⟩
        · exact ⟨[], rfl⟩
        · exact ⟨cut none s, by simp [cutStages, cut, (isSpace_iff c).2 hc]⟩
      obtain ⟨r, e⟩ := this
      exact ⟨[], r, [], e, .nil, fun s hs => absurd rfl (says_word hs)⟩
    · exact ⟨b, a, ss, cut_of_written h1, h2, h3⟩

/-- a number of one digit -/
def oneDigit (w : Word) : Option Rat :=
  match w with
  | [c] => if '0' ≤ c ∧ c ≤ '9' then some (c.toNat - 48 : Nat) else none
  | _ => none

/-- "depth=5 stop bm25 " -/
example : ∃ ss, fromPipeline oneDigit (fun _ _ => 0) ['d', 'e', 'p', 't', 'h', '=', '5', ' ', 's', 't', 'o', 'p', ' ', ' ', 'b', 'm', '2', '5', '\n'] = .ok ss ∧
    ss.length = 3 := ⟨_, rfl, rfl⟩

/-- " bm25" is refused -/
example : fromPipeline oneDigit (fun _ _ => 0) [' ', 'b', 'm', '2', '5'] = .error [] := rfl

/-- "stop bm" is refused because of "bm" -/
example : fromPipeline oneDigit (fun _ _ => 0) ['s', 't', 'o', 'p', ' ', 'b', 'm'] = .error ['b', 'm'] := rfl

/-! ### what pipelines do -/

section
variable {V R : Type} {A : Arith V} {lt : Word → Word → Bool} {T : Tools V R}

/-- **C63 (partly).** Missing: the statistics have to have a tokenizer, and the one of the warren (`C63_release_null`, `C63_two_tokenizers`).
The words of the query are counted, then each stage does to the words, the parameters and the ranking what it says. -/
theorem C63_meaning_partial (hs : Sound A lt T) (ss : List Stage) (query : List Char) :
    ∃ a b ps, Start (meansOf A lt T) query a ∧ Steps (meansOf A lt T) a ss b ∧
      runPipeline A lt T ss query = some (b.ranking, ps) ∧ ps.get = b.params := by
  have st := countWords_ok (A := A) hs.total (T.warrenTokenizer query)
  have f : Follows A lt T ⟨query, [], [], []⟩ ⟨countWords A lt (T.warrenTokenizer query), fun _ => none, []⟩ :=
    ⟨rfl, rfl, st.1, .inr ⟨rfl, rfl⟩⟩
  obtain ⟨c, b, h1, h2, h3⟩ := runStages_ok hs ss f
  refine ⟨⟨countWords A lt (T.warrenTokenizer query), fun _ => none, []⟩, b, c.params, ⟨st.1, st.2, rfl, rfl⟩, h2, ?_, h3.params.symm⟩
  unfold runPipeline
  rw [h1, h3.ranking]
  rfl

/-- **C63.** And that is all that can be meant. -/
theorem C63_determined (ht : Total lt) {ss : List Stage} {query : List Char} {a a' b b' : Asking V R}
    (h1 : Start (meansOf A lt T) query a) (h2 : Steps (meansOf A lt T) a ss b)
    (h1' : Start (meansOf A lt T) query a') (h2' : Steps (meansOf A lt T) a' ss b') : b = b' := by
  have := start_unique ht h1 h1'
  subst this
  exact steps_unique ht h2 h2'

/-- what is after the last ranking stage does not matter to the ranking; without a ranking stage nothing is returned -/
theorem C63_last_partial (hs : Sound A lt T) (query : List Char) (rest : List Stage) (hr : ∀ s ∈ rest, s.isRank = false) :
    (∃ ps, runPipeline A lt T rest query = some ([], ps)) ∧
    ∀ ss r, ∃ rs ps ps', runPipeline A lt T (ss ++ .rank r :: rest) query = some (rs, ps) ∧
      runPipeline A lt T (ss ++ [.rank r]) query = some (rs, ps') := by
  constructor
  · obtain ⟨a, b, ps, h1, h2, h3, _⟩ := C63_meaning_partial hs rest query
    refine ⟨ps, ?_⟩
    rw [h3, steps_ranking h2 hr, h1.ranking]
  · intro ss r
    obtain ⟨a, b, ps, h1, h2, h3, _⟩ := C63_meaning_partial hs (ss ++ .rank r :: rest) query
    obtain ⟨a', b', ps', h1', h2', h3', _⟩ := C63_meaning_partial hs (ss ++ [.rank r]) query
    have e : ss ++ .rank r :: rest = (ss ++ [.rank r]) ++ rest := by simp
    rw [e] at h2
    obtain ⟨m, g1, g2⟩ := steps_append.1 h2
    have em := C63_determined hs.total h1 g1 h1' h2'
    subst em
    exact ⟨_, ps, ps', h3, by rw [h3', steps_ranking g2 hr]⟩

/-- the parameters that are returned are those given last -/
theorem C63_parameters_partial (hs : Sound A lt T) (ss : List Stage) (query : List Char) :
    ∃ rs ps, runPipeline A lt T ss query = some (rs, ps) ∧ ∀ name, ps.get name = (ss.filterMap (gives name)).getLast? := by
  obtain ⟨a, b, ps, h1, h2, h3, h4⟩ := C63_meaning_partial hs ss query
  refine ⟨_, ps, h3, fun name => ?_⟩
  rw [h4, steps_params h2, h1.params]
  cases (ss.filterMap (gives name)).getLast? <;> rfl

/-- **C63 (not so).** A stage for random parameters sets the depth to 1000 as well, whatever an earlier stage set it to. -/
theorem C63_random_depth (hs : Sound A lt T) {stof : Word → Option Rat} {drawn : Word → Rat} {ranker : Word} {s : Stage}
    (hr : rankerDefaults ranker ≠ none) (h : Says stof drawn (['r', 'a', 'n', 'd', 'o', 'm', ':'] ++ ranker) s)
    (ss : List Stage) (query : List Char) (x : Rat) :
    ∃ rs ps, runPipeline A lt T (.set ['d', 'e', 'p', 't', 'h'] x :: ss ++ [s]) query = some (rs, ps) ∧
      ps.get ['d', 'e', 'p', 't', 'h'] = some 1000 := by
  obtain ⟨rs, ps, h1, h2⟩ := C63_parameters_partial hs (.set ['d', 'e', 'p', 't', 'h'] x :: ss ++ [s]) query
  refine ⟨rs, ps, h1, ?_⟩
  rw [h2, List.filterMap_append]
  suffices hg : gives ['d', 'e', 'p', 't', 'h'] s = some 1000 by
    rw [List.filterMap_cons_some hg, List.filterMap_nil, List.getLast?_concat]
  obtain ⟨names, hn⟩ := Option.ne_none_iff_exists'.1 hr
  obtain ⟨a1, a2⟩ := names_apart hn
  have e : s = .setAll ((depthName, 1000) :: names.map fun n => (n.1, drawn n.1)) := by
    have e1 := fromName_says.2 h
    have e2 := fromName_says.2 (Says.random (stof := stof) (drawn := drawn) a1 hn)
    exact Option.some.inj (e1.symm.trans e2)
  subst e
  show latest ((depthName, 1000) :: names.map fun n => (n.1, drawn n.1)) depthName = some 1000
  rw [latest_cons]
  have : latest (names.map fun n => (n.1, drawn n.1)) depthName = none := by
    unfold latest
    rw [List.filter_eq_nil_iff.2]
    · rfl
    · intro x hx
      obtain ⟨n, hn, rfl⟩ := List.mem_map.1 hx
      simpa using a2 n hn
  rw [this]
  rfl

end

/-- **C63.** A depth given by its short name is that of every stage after it: also the number of results that feedback looks at. -/
theorem C63_depth_shared (ps : Params) (x : Rat) (h : ps.get ['d', 'e', 'p', 't', 'h'] = some x) (ranker : Word)
    (h0 : ps.get (ranker ++ [':', 'd', 'e', 'p', 't', 'h']) = none) : rankingParameter ranker ['d', 'e', 'p', 't', 'h'] ps = some x := by
  unfold rankingParameter
  have : ranker ++ ':' :: ['d', 'e', 'p', 't', 'h'] = ranker ++ [':', 'd', 'e', 'p', 't', 'h'] := rfl
  rw [this, h0, h]

/-! ### cases -/

/-- words in the order of their letters -/
def wordLess : Word → Word → Bool
  | [], [] => false
  | [], _ :: _ => true
  | _ :: _, [] => false
  | a :: v, b :: w => if a.toNat < b.toNat then true else if b.toNat < a.toNat then false else wordLess v w

theorem wordLess_total : Total wordLess := by
  have inj : ∀ {a b : Char}, a.toNat = b.toNat → a = b := fun h => Char.ext (UInt32.toNat_inj.1 h)
  refine ⟨?_, ?_, ?_⟩
  · intro a
    induction a with
    | nil =>
      intro b c h1 h2
      cases b with
      | nil => exact h2
      | cons x b => cases c with
        | nil => cases h2
        | cons y c => rfl
    | cons u a ih =>
      intro b c h1 h2
      cases b with
      | nil => cases h1
      | cons x b => cases c with
        | nil => cases h2
        | cons y c =>
          simp only [wordLess] at h1 h2 ⊢
          split at h1
          · split at h2
            · rw [if_pos (by omega)]
            · split at h2
              · cases h2
              · rw [if_pos (by omega)]
          · split at h1
            · cases h1
            · split at h2
              · rw [if_pos (by omega)]
              · split at h2
                · cases h2
                · rw [if_neg (by omega), if_neg (by omega)]
                  exact ih h1 h2
  · intro a
    induction a with
    | nil => rfl
    | cons u a ih =>
      simp only [wordLess]
      rw [if_neg (by omega), if_neg (by omega)]
      exact ih
  · intro a
    induction a with
    | nil =>
      intro b h1 h2
      cases b with
      | nil => exact absurd rfl h1
      | cons => cases h2
    | cons u a ih =>
      intro b h1 h2
      cases b with
      | nil => rfl
      | cons x b =>
        simp only [wordLess] at h2 ⊢
        split at h2
        · cases h2
        · split at h2
          · rw [if_pos (by omega)]
          · rename_i g1 g2
            rw [if_neg (by omega), if_neg (by omega)]
            have e : u = x := inj (by omega)
            subst e
            exact ih (fun e => h1 (by rw [e])) h2

/-- words are pieces between blanks, "s" at the end is no part of a stem, "a" is a stopword, and a ranking is the words of the query with
their weights -/
def someTools : Tools Nat (Word × Nat) where
  tokenizer := some (fun s => (cutStages s).filter (· ≠ []))
  warrenTokenizer := fun s => (cutStages s).filter (· ≠ [])
  stem := fun w => if w.getLast? = some 's' then w.dropLast else w
  stopwords := [['a']]
  rank := fun _ q _ => q
  feedback := fun _ rs _ => rs.map fun r => (r.1 ++ r.1, r.2)

def counting : Arith Nat := ⟨0, 1, (· + ·)⟩

theorem someTools_sound : Sound counting wordLess someTools := ⟨wordLess_total, rfl, rfl, by decide⟩

/-- "cats a cat cats" with "stem", "stop" and "lmd": only "cat", and three times -/
example : runPipeline counting wordLess someTools [.stem, .stop, .rank .lmd] ['c', 'a', 't', 's', ' ', 'a', ' ', 'c', 'a', 't', ' ', 'c', 'a', 't', 's'] =
    some ([(['c', 'a', 't'], 3)], []) := by decide +kernel

/-- "b" ranked, expanded, ranked again -/
example : runPipeline counting wordLess someTools [.set ['k'] 2, .rank .bm25, .expand .rsj, .rank .bm25, .stem] ['b'] =
    some ([(['b'], 1), (['b', 'b'], 1)], [(['k'], 2)]) := by decide +kernel

/-- only stopwords: they stay -/
example : runPipeline counting wordLess someTools [.stop, .rank .lmd] ['a', ' ', 'a'] = some ([(['a'], 2)], []) := by decide +kernel

/-! ### where it is not so -/

/-- **C63 (not so).** When the tokenizer of the statistics is not that of the warren (as that of `meadowlark::TfIdfStats` need not be), a query
is split in different ways, depending on whether something is before "lmd": here "stop", though there is no stopword in the query. -/
theorem C63_two_tokenizers : ∃ (T : Tools Nat (Word × Nat)) (query : List Char),
    T.stopwords = [] ∧ runPipeline counting wordLess T [.rank .lmd] query ≠ runPipeline counting wordLess T [.stop, .rank .lmd] query :=
  ⟨{ someTools with tokenizer := some (fun s => if s = [] then [] else [s]), stopwords := [] }, ['a', ' ', 'b'], rfl, by decide +kernel⟩

/-- **C63 (not so).** Statistics that bring no tokenizer get the one of the warren within an assertion.  With assertions that is what happens, without
them (`-DNDEBUG`, as `make fast` has it) they get none; and then a null pointer is followed by "bm25", and by "stem" or "stop" if there is a query at all. -/
theorem C63_release_null {W : Type} (t : W) :
    statsTokenizer true none (some t) = some (some t) ∧ statsTokenizer false none (some t) = some none ∧
    ∀ {V R : Type} (A : Arith V) (lt : Word → Word → Bool) (T : Tools V R) (query : List Char) (rest : List Stage), T.tokenizer = none →
      runPipeline A lt T (.rank .bm25 :: rest) query = none ∧
      (query ≠ [] → runPipeline A lt T (.stem :: rest) query = none ∧ runPipeline A lt T (.stop :: rest) query = none) := by
  refine ⟨rfl, rfl, ?_⟩
  intro V R A lt T query rest h
  refine ⟨?_, fun hq => ⟨?_, ?_⟩⟩
  · simp [runPipeline, runStages, transform, Context.rank, h]
  · simp [runPipeline, runStages, transform, Context.stem, Context.cook, h, hq]
  · simp [runPipeline, runStages, transform, Context.stop, Context.cook, h, hq]

/-- **C63 (not so).** The flags that `tf_idf_annotations` stores with the statistics (`src/ranking.cc:1090-1105`) can be told from each other, but whatever
they are all are taken to be set. -/
theorem C63_flags_ignored (unstemmed idf rsj : Bool) :
    okay (okayText unstemmed) = unstemmed ∧ idfFlags (some (okayText unstemmed)) (some (okayText idf)) (some (okayText rsj)) = (true, true, true) := by
  refine ⟨?_, rfl⟩
  cases unstemmed <;> decide

end Verif.Props
