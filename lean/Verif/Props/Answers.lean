import Verif.Answers.Model
import Verif.Props.Feeds
/-
  C103: what is printed for a question or a topic is its own results, with passages around them, ranked from 1 on.
-/
namespace Verif.Props
open Verif.Answers
open Verif.Feeds (maxAddr tauOf fieldsFrom wordsFrom words)

/-! ### passages for questions -/

/-- **C103** (passages): a passage is in its container, is no longer than the window, has the whole result when that fits and its beginning when it does not, and has the length of the window unless the container
ends before that -/
theorem C103_passage {window p q cp cq : Int} (hw : 1 ≤ window) (h1 : cp ≤ p) (h2 : p ≤ q) (h3 : q ≤ cq) :
    ∃ a b, passage window p q cp cq = (a, b) ∧ cp ≤ a ∧ a ≤ p ∧ a ≤ b ∧ b ≤ cq ∧ b - a + 1 ≤ window ∧ (q - p + 1 ≤ window → q ≤ b) ∧ (q - p + 1 > window → a = p ∧ b = p + window - 1) ∧
      (b < cq → b - a + 1 = window) := by
  refine ⟨_, _, rfl, ?_⟩
  split <;> split <;> (try split) <;> omega

/-- **C103** (middle): when the container goes on long enough to both sides, the result is in the middle of its passage -/
theorem C103_middle {window p q cp cq : Int} (h2 : p ≤ q) (hf : q - p + 1 ≤ window) (hl : cp ≤ p - window) (hr : q + window ≤ cq) :
    ∃ a b, passage window p q cp cq = (a, b) ∧ b - a + 1 = window ∧ 0 ≤ p - a ∧ 0 ≤ (b - q) - (p - a) ∧ (b - q) - (p - a) ≤ 1 := by
  refine ⟨_, _, rfl, ?_⟩
  split <;> split <;> (try split) <;> omega

/-- **C103** (before the result): what comes before the result in its passage is half of what is left of the window, or all that the container has -/
theorem C103_before {window p q cp cq : Int} (h1 : cp ≤ p) (hf : q - p + 1 ≤ window) :
    p - (passage window p q cp cq).1 = min ((window - (q - p + 1)) / 2) (p - cp) := by
  unfold passage
  dsimp only
  split <;> (try split) <;> omega

/-- **A result at the end of its container gets a short passage**, though the container has more before it -/
theorem C103_short {window q cp : Int} (hw : 3 ≤ window) (hc : cp ≤ q - window) : ∃ a b, passage window q q cp q = (a, b) ∧ b - a + 1 < window ∧ cp < a := by
  refine ⟨_, _, rfl, ?_⟩
  split <;> split <;> (try split) <;> omega

theorem take_sep {s : Char} : ∀ (a b : List Char), s ∉ a → (a ++ s :: b).takeWhile (· != s) = a ∧ (a ++ s :: b).dropWhile (· != s) = s :: b := by
  intro a
  induction a with
  | nil => intro b _; simp
  | cons c a ih =>
    intro b h
    simp only [List.mem_cons, not_or] at h
    have hc : (c != s) = true := by simpa using fun e : c = s => h.1 e.symm
    obtain ⟨h1, h2⟩ := ih b h.2
    constructor
    · rw [List.cons_append, List.takeWhile_cons, hc, if_pos rfl, h1]
    · rw [List.cons_append, List.dropWhile_cons, hc, if_pos rfl, h2]

/-- **C103** (lines): a label, a tab and a question, or without tabs a label, a blank and a question, are read as such -/
theorem C103_line {label question : List Char} (h0 : label ≠ []) :
    ('\t' ∉ label → questionLine (label ++ '\t' :: question) = some (label, '\t' :: question)) ∧
    ('\t' ∉ label → ' ' ∉ label → '\t' ∉ question → questionLine (label ++ ' ' :: question) = some (label, ' ' :: question)) := by
  constructor
  · intro h
    unfold questionLine
    rw [if_pos (show '\t' ∈ label ++ '\t' :: question by simp)]
    obtain ⟨h1, h2⟩ := take_sep label question h
    simp [h1, h2, h0]
  · intro ht h hq
    unfold questionLine
    rw [if_neg (show '\t' ∉ label ++ ' ' :: question by simp [ht, hq])]
    obtain ⟨h1, h2⟩ := take_sep label question h
    simp [h1, h2, h0]

/-- and a line without either, or that begins with it, is weird -/
theorem C103_weird (line : List Char) (h : ('\t' ∉ line ∧ ' ' ∉ line) ∨ (∃ t, line = '\t' :: t) ∨ (∃ t, line = ' ' :: t ∧ '\t' ∉ line)) : questionLine line = none := by
  unfold questionLine
  rcases h with ⟨h1, h2⟩ | ⟨t, rfl⟩ | ⟨t, rfl, h⟩
  · simp [h1, h2]
  · simp
  · rw [if_neg h]
    simp

theorem words_word : ∀ (w cur t : List Char), (∀ c ∈ w, ¬isGap c) → wordsFrom cur (w ++ t) = wordsFrom (cur ++ w) t := by
  intro w
  induction w with
  | nil => intro cur t _; simp
  | cons c w ih =>
    intro cur t h
    rw [List.cons_append, words_char cur (h c (by simp)), ih _ _ (fun x hx => h x (by simp [hx]))]
    simp

theorem words_each : ∀ (ws : List (List Char)) (cur : List Char), cur ≠ [] → (∀ w ∈ ws, w ≠ [] ∧ ∀ c ∈ w, ¬isGap c) → wordsFrom cur (ws.flatMap fun w => ' ' :: w) = cur :: ws := by
  intro ws
  induction ws with
  | nil => intro cur h _; simp [wordsFrom, h]
  | cons w ws ih =>
    intro cur h hw
    have h1 := hw w (by simp)
    rw [List.flatMap_cons, List.cons_append, words_gap cur (.inl rfl), if_neg h, words_word w [] _ h1.2, List.nil_append, ih w h1.1 (fun x hx => hw x (by simp [hx]))]
    rfl

section
variable (stop : List Char → Bool) (split : List Char → List (List Char))

/-- **The first keyword is twice in the query**: with two keywords or more, its words are the first and then all of them -/
theorem C103_doubled {question k k' : List Char} {ks : List (List Char)} (h : (split question).filter (fun w => !stop w) = k :: k' :: ks)
    (hw : ∀ w ∈ split question, w ≠ [] ∧ ∀ c ∈ w, ¬isGap c) : words (queryOf stop split question) = k :: k :: k' :: ks := by
  have hk : ∀ w ∈ k :: k' :: ks, w ≠ [] ∧ ∀ c ∈ w, ¬isGap c := by
    intro w hw'
    rw [← h] at hw'
    exact hw w (List.mem_filter.1 hw').1
  unfold queryOf
  rw [h]
  simp only
  unfold words
  rw [words_word k [] _ (hk k (by simp)).2, List.nil_append, words_each _ k (hk k (by simp)).1 hk]

/-- **C103** (query), in part: the words of the query are exactly the words of the question that are not in the list, when there are two of these.  Missing: each as often as in the question. -/
theorem C103_query_partial {question : List Char} (h : 2 ≤ ((split question).filter fun w => !stop w).length) (hw : ∀ w ∈ split question, w ≠ [] ∧ ∀ c ∈ w, ¬isGap c) (w : List Char) :
    w ∈ words (queryOf stop split question) ↔ w ∈ split question ∧ stop w = false := by
  match hf : (split question).filter (fun w => !stop w), h with
  | k :: k' :: ks, _ =>
    rw [C103_doubled stop split hf hw]
    have : w ∈ k :: k :: k' :: ks ↔ w ∈ k :: k' :: ks := by simp
    rw [this, ← hf, List.mem_filter]
    simp

/-- **With one keyword, the query is the question**, with all its other words -/
theorem C103_one_keyword {question : List Char} (h : ((split question).filter fun w => !stop w).length ≤ 1) : queryOf stop split question = question := by
  unfold queryOf
  split
  · rename_i e
    rw [e] at h
    simp at h
  · rfl

end

theorem read_all (query : List Char → List Char) : ∀ (qs : List (List Char × List Char)) (queue : List (List Char)) (f : List Char → List Char),
    (∀ x ∈ qs, x.1 ≠ [] ∧ '\t' ∉ x.1) → ∃ g, readQuestions query (qs.map fun x => x.1 ++ '\t' :: x.2) queue f = some (queue ++ qs.map (·.1), g) ∧
      (∀ l, l ∉ qs.map (·.1) → g l = f l) ∧ ∀ before x after, qs = before ++ x :: after → x.1 ∉ after.map (·.1) → g x.1 = query ('\t' :: x.2) := by
  intro qs
  induction qs with
  | nil =>
    intro queue f _
    refine ⟨f, by simp [readQuestions], fun _ _ => rfl, ?_⟩
    intro b x a e
    simp at e
  | cons y qs ih =>
    intro queue f h
    have hy := h y (by simp)
    obtain ⟨g, h1, h2, h3⟩ := ih (queue ++ [y.1]) (fun x => if x = y.1 then query ('\t' :: y.2) else f x) (fun x hx => h x (by simp [hx]))
    refine ⟨g, ?_, ?_, ?_⟩
    · rw [List.map_cons, readQuestions, (C103_line hy.1).1 hy.2]
      simp only
      rw [h1]
      simp
    · intro l hl
      simp only [List.map_cons, List.mem_cons, not_or] at hl
      rw [h2 l hl.2, if_neg hl.1]
    · intro b x a e hx
      cases b with
      | nil =>
        rw [List.nil_append, List.cons.injEq] at e
        obtain ⟨rfl, rfl⟩ := e
        rw [h2 _ hx, if_pos rfl]
      | cons z b =>
        rw [List.cons_append, List.cons.injEq] at e
        exact h3 b x a e.2 hx

/-- **C103** (questions), in part: when no label is used twice, each label is taken once, in order, with the query of its own question.  Missing: labels that are used twice. -/
theorem C103_tasks_partial (query : List Char → List Char) (qs : List (List Char × List Char)) (h : ∀ x ∈ qs, x.1 ≠ [] ∧ '\t' ∉ x.1) (hd : (qs.map (·.1)).Nodup) :
    tasks query (qs.map fun x => x.1 ++ '\t' :: x.2) = some (qs.map fun x => (x.1, query ('\t' :: x.2))) := by
  obtain ⟨g, h1, -, h3⟩ := read_all query qs [] (fun _ => []) h
  unfold tasks
  rw [h1]
  simp only [List.nil_append, Option.map_some, List.map_map, Option.some.injEq]
  apply List.map_congr_left
  intro x hx
  obtain ⟨b, a, e⟩ := List.append_of_mem hx
  have : x.1 ∉ a.map (·.1) := by
    rw [e, List.map_append, List.map_cons] at hd
    exact (List.nodup_cons.1 (List.nodup_append.1 hd).2.1).1
  simp only [Function.comp, h3 b x a e this]

/-- **C103** (weird lines): with a weird line anywhere, no question is answered -/
theorem C103_weird_stops (query : List Char → List Char) (before after : List (List Char)) (l : List Char) (h : questionLine l = none) : tasks query (before ++ l :: after) = none := by
  have key : ∀ (before queue : List (List Char)) (f : List Char → List Char), readQuestions query (before ++ l :: after) queue f = none := by
    intro before
    induction before with
    | nil => intro queue f; rw [List.nil_append, readQuestions, h]
    | cons x before ih =>
      intro queue f
      rw [List.cons_append, readQuestions]
      split
      · rfl
      · exact ih _ _
  unfold tasks
  rw [key]
  rfl

/-- **A label that is used twice has only its last question**, which is answered twice -/
theorem C103_same_label (query : List Char → List Char) (l q1 q2 : List Char) (h0 : l ≠ []) (h : '\t' ∉ l) :
    tasks query [l ++ '\t' :: q1, l ++ '\t' :: q2] = some [(l, query ('\t' :: q2)), (l, query ('\t' :: q2))] := by
  unfold tasks
  simp [readQuestions, (C103_line h0).1 h]

/-- **C103** (ranks): there is a line for each result, in order, with the label, ranks from 1 on, and a passage that is all on the line, in its field -/
theorem C103_answers (window : Int) (translate : Int → Int → List Char) (label : List Char) (rs : List ((Int × Int) × (Int × Int))) :
    (answerLines window translate label 1 rs).length = rs.length ∧ ∀ (i : Nat) r, rs[i]? = some r → ∃ t, (answerLines window translate label 1 rs)[i]? = some (label, i + 1, t) ∧
      t = clean (translate (passage window r.1.1 r.1.2 r.2.1 r.2.2).1 (passage window r.1.1 r.1.2 r.2.1 r.2.2).2) ∧ '\n' ∉ t ∧ '\t' ∉ t := by
  have hc : ∀ s c, c = '\n' ∨ c = '\t' → c ∉ clean s := by
    intro s c hc h
    unfold clean at h
    obtain ⟨d, -, e⟩ := List.mem_map.1 h
    split at e
    · rw [← e] at hc; revert hc; decide
    · rename_i hn
      rw [e] at hn
      exact hn hc
  have key : ∀ (rs : List ((Int × Int) × (Int × Int))) (n : Nat), (answerLines window translate label n rs).length = rs.length ∧ ∀ (i : Nat) r, rs[i]? = some r →
      (answerLines window translate label n rs)[i]? = some (label, n + i, clean (translate (passage window r.1.1 r.1.2 r.2.1 r.2.2).1 (passage window r.1.1 r.1.2 r.2.1 r.2.2).2)) := by
    intro rs
    induction rs with
    | nil => intro n; exact ⟨rfl, fun i r h => by simp at h⟩
    | cons x rs ih =>
      intro n
      obtain ⟨h1, h2⟩ := ih (n + 1)
      refine ⟨by simp [answerLines, h1], ?_⟩
      intro i r h
      cases i with
      | zero =>
        rw [List.getElem?_cons_zero] at h
        injection h with h
        subst h
        simp [answerLines]
      | succ i =>
        rw [List.getElem?_cons_succ] at h
        simp only [answerLines, List.getElem?_cons_succ]
        rw [h2 i r h, show n + 1 + i = n + (i + 1) by omega]
  refine ⟨(key rs 1).1, ?_⟩
  intro i r h
  refine ⟨_, ?_, rfl, hc _ _ (.inl rfl), hc _ _ (.inr rfl)⟩
  rw [(key rs 1).2 i r h, Nat.add_comm]

/-! ### runs for topics -/

/-- a result has a name in it: the first that begins at its start or after it also ends in it -/
def NamedBy (ids : List (Int × Int)) (c id : Int × Int) : Prop := tauOf ids c.1 = id ∧ id.2 ≤ c.2

/-- **C103** (topics), in part: when every result has a name, there is a line for each of them, in order, with the ranks 1, 2, 3, and so on.  Missing: results without a name. -/
theorem C103_topic_partial (ids : List (Int × Int)) (results : List ((Int × Int) × (Int × Int))) (h : ∀ r ∈ results, NamedBy ids r.1 r.2) (h0 : results ≠ []) :
    (topic ids (results.map (·.1))).map (·.2) = results.map (fun r => some r.2) ∧ (topic ids (results.map (·.1))).map (·.1) = (List.range results.length).map (· + 1) := by
  have key : ∀ (results : List ((Int × Int) × (Int × Int))) (n : Nat), (∀ r ∈ results, NamedBy ids r.1 r.2) →
      (topicFrom ids n (results.map (·.1))).map (·.2) = results.map (·.2) ∧ (topicFrom ids n (results.map (·.1))).map (·.1) = (List.range' (n + 1) results.length) := by
    intro results
    induction results with
    | nil => intro n _; exact ⟨rfl, rfl⟩
    | cons r results ih =>
      intro n h
      obtain ⟨h1, h2⟩ := h r (by simp)
      obtain ⟨i1, i2⟩ := ih (n + 1) (fun x hx => h x (by simp [hx]))
      simp only [List.map_cons, topicFrom, h1, if_pos h2, i1, i2, List.length_cons, List.range'_succ]
      exact ⟨trivial, trivial⟩
  obtain ⟨k1, k2⟩ := key results 0 h
  unfold topic
  rw [if_neg (by simpa using h0)]
  constructor
  · rw [List.map_map, show ((·.2) ∘ fun l : Nat × (Int × Int) => (l.1, some l.2)) = (some ∘ fun l : Nat × (Int × Int) => l.2) from rfl, ← List.map_map, k1, List.map_map]
    rfl
  · rw [List.map_map, show ((·.1) ∘ fun l : Nat × (Int × Int) => (l.1, some l.2)) = (fun l : Nat × (Int × Int) => l.1) from rfl, k2, Nat.zero_add, List.range_eq_range']
    rw [List.range'_eq_map_range, List.range_eq_range']
    exact List.map_congr_left fun x _ => Nat.add_comm 1 x

/-- **C103** (names): every line has the name of one of the results, in that result, and its rank is the place of that result -/
theorem C103_names (ids results : List (Int × Int)) (n : Nat) (id : Int × Int) (h : (n, some id) ∈ topic ids results) : ∃ (i : Nat) (c : Int × Int), results[i]? = some c ∧ n = i + 1 ∧ NamedBy ids c id := by
  have key : ∀ (results : List (Int × Int)) (k : Nat), (n, id) ∈ topicFrom ids k results → ∃ (i : Nat) (c : Int × Int), results[i]? = some c ∧ n = k + i + 1 ∧ NamedBy ids c id := by
    intro results
    induction results with
    | nil => intro k h; cases h
    | cons c cs ih =>
      intro k h
      have tail : (n, id) ∈ topicFrom ids (k + 1) cs → ∃ (i : Nat) (d : Int × Int), (c :: cs)[i]? = some d ∧ n = k + i + 1 ∧ NamedBy ids d id := by
        intro h
        obtain ⟨i, d, h1, h2, h3⟩ := ih (k + 1) h
        exact ⟨i + 1, d, by simpa using h1, by omega, h3⟩
      rw [topicFrom] at h
      split at h
      · rename_i hc
        rcases List.mem_cons.1 h with e | h
        · injection e with e1 e2
          exact ⟨0, c, rfl, by omega, e2.symm, by rw [e2]; exact hc⟩
        · exact tail h
      · exact tail h
  unfold topic at h
  split at h
  · simp at h
  · obtain ⟨l, hl, e⟩ := List.mem_map.1 h
    injection e with e1 e2
    injection e2 with e2
    obtain ⟨i, c, h1, h2, h3⟩ := key results 0 (by rw [← e1, ← e2]; exact hl)
    exact ⟨i, c, h1, by omega, h3⟩

/-- **C103** (at least one line), in part: a topic without results gets one line that is made up, and a topic with a result that has a name gets a line for it with its rank.  Missing: results without names. -/
theorem C103_some_line_partial (ids results : List (Int × Int)) : (results = [] → topic ids results = [(1, none)]) ∧
    ∀ (i : Nat) (c id : Int × Int), results[i]? = some c → NamedBy ids c id → (i + 1, some id) ∈ topic ids results := by
  have key : ∀ (results : List (Int × Int)) (k i : Nat) (c id : Int × Int), results[i]? = some c → NamedBy ids c id → (k + i + 1, id) ∈ topicFrom ids k results := by
    intro results
    induction results with
    | nil => intro k i c id h; simp at h
    | cons x xs ih =>
      intro k i c id h hn
      rw [topicFrom]
      cases i with
      | zero =>
        rw [List.getElem?_cons_zero] at h
        injection h with h
        subst h
        rw [hn.1, if_pos hn.2]
        simp
      | succ i =>
        rw [List.getElem?_cons_succ] at h
        have := ih (k + 1) i c id h hn
        rw [show k + 1 + i + 1 = k + (i + 1) + 1 by omega] at this
        split
        · exact List.mem_cons_of_mem _ this
        · exact this
  constructor
  · rintro rfl
    rfl
  · intro i c id h hn
    unfold topic
    rw [if_neg (by rintro rfl; simp at h)]
    refine List.mem_map.2 ⟨(i + 1, id), ?_, rfl⟩
    have := key results 0 i c id h hn
    rwa [Nat.zero_add] at this

/-- **A result without a name leaves a gap in the ranks** -/
theorem C103_gap : ∃ ids results, (topic ids results).map (·.1) = [1, 3] := ⟨[(0, 0), (20, 20)], [(0, 5), (10, 15), (20, 25)], by decide +kernel⟩

/-- **A topic whose results have no names has no line at all**, not even the one that is made up for a topic without results -/
theorem C103_no_line (results : List (Int × Int)) (h0 : results ≠ []) (h : ∀ c ∈ results, c.2 < maxAddr) : topic [] results = [] := by
  have key : ∀ (results : List (Int × Int)) (k : Nat), (∀ c ∈ results, c.2 < maxAddr) → topicFrom [] k results = [] := by
    intro results
    induction results with
    | nil => intro k _; rfl
    | cons c cs ih =>
      intro k h
      have hc := h c (by simp)
      rw [topicFrom]
      have e : tauOf [] c.1 = (maxAddr, maxAddr) := rfl
      rw [e, if_neg (Int.not_le.2 hc), ih _ (fun x hx => h x (by simp [hx]))]
  unfold topic
  rw [if_neg h0, key results 0 h]
  rfl

/-! ### texts of passages -/

section
variable (passagesOf : List Char → List (Int × Int)) (translate : Int → Int → List Char)

/-- **C103** (list): a line whose third field names a passage is printed with one more field, the text of the first such passage from its fifth token on, all on that line -/
theorem C103_with_text {line name : List Char} {r : Int × Int} (hn : (fieldsFrom [] line)[2]? = some name) (hp : (passagesOf name).head? = some r) (h0 : 0 ≤ r.1) (hm : r.1 + 4 ≤ maxAddr) (hl : '\n' ∉ line) :
    ∃ t, withText passagesOf translate line = some (line ++ '\t' :: t ++ ['\n']) ∧ '\n' ∉ line ++ '\t' :: t ∧ '\t' ∉ t ∧ words t = words (translate (r.1 + 4) r.2) := by
  have e : tauOf (passagesOf name) 0 = r := by
    generalize passagesOf name = l at hp
    cases l with
    | nil => cases hp
    | cons x l =>
      injection hp with hp
      subst hp
      exact tau_first (before := []) (by simp) h0
  have hno : ∀ s c, c = '\n' ∨ c = '\t' ∨ c = '\r' → c ∉ Verif.Feeds.blank s := by
    intro s c hc h
    unfold Verif.Feeds.blank at h
    obtain ⟨d, -, e⟩ := List.mem_map.1 h
    split at e
    · rw [← e] at hc; revert hc; decide
    · rename_i hn
      rw [e] at hn
      exact hn hc
  refine ⟨Verif.Feeds.blank (translate (r.1 + 4) r.2), ?_, ?_, hno _ _ (.inr (.inl rfl)), words_blank _ []⟩
  · unfold withText
    rw [hn]
    simp only [e]
    rw [if_neg (by omega)]
  · intro h
    rcases List.mem_append.1 h with h | h
    · exact hl h
    · rcases List.mem_cons.1 h with h | h
      · revert h; decide
      · exact hno _ _ (.inl rfl) h

/-- **A name that is nowhere is undefined behaviour**: the address after the end of the addresses -/
theorem C103_nowhere {line name : List Char} (hn : (fieldsFrom [] line)[2]? = some name) (hp : passagesOf name = []) : withText passagesOf translate line = none := by
  unfold withText
  rw [hn]
  simp only [hp, tauOf, List.find?_nil, Option.getD_none]
  rw [if_pos (by decide)]

end

/-! ### examples -/

example : passage 8 50 51 0 99 = (47, 54) := by decide
example : passage 8 1 2 0 99 = (0, 7) := by decide
example : passage 8 99 99 0 99 = (96, 99) := by decide
example : passage 8 20 40 0 99 = (20, 27) := by decide
example : questionLine ['4', '2', ' ', 'w', 'h', 'o'] = some (['4', '2'], [' ', 'w', 'h', 'o']) := by decide
example : words (queryOf (fun w => w = ['t', 'h', 'e']) (words) [' ', 't', 'h', 'e', ' ', 'a', 'b', ' ', 'c']) = [['a', 'b'], ['a', 'b'], ['c']] := by decide +kernel
example : topic [(0, 0), (20, 20)] [(20, 25), (0, 5)] = [(1, some (20, 20)), (2, some (0, 0))] := by decide +kernel
example : topic [(0, 0)] [] = [(1, none)] := by decide
example : withText (fun n => if n = ['c'] then [(7, 20)] else []) (fun _ _ => ['x', '\n', 'y']) ['a', '\t', 'b', '\t', 'c'] = some ['a', '\t', 'b', '\t', 'c', '\t', 'x', ' ', 'y', '\n'] := by decide +kernel

end Verif.Props
