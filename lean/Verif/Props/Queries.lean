import Verif.Queries.Model
/-
  C110: the queries of a file of topics are those that it has.
-/
namespace Verif.Props
open Verif.Queries

theorem split_line (sep : Char) (t q : List Char) (h : sep ∉ t) : topicOf sep (t ++ sep :: q) = t ∧ queryOf sep (t ++ sep :: q) = sep :: q := by
  unfold topicOf queryOf
  induction t with
  | nil => simp
  | cons c t ih =>
    have hc : c ≠ sep := fun e => h (by simp [e])
    have ht : sep ∉ t := fun e => h (by simp [e])
    rw [List.cons_append, List.takeWhile_cons_of_pos (by simpa using hc), List.dropWhile_cons_of_pos (by simpa using hc), (ih ht).1, (ih ht).2]
    exact ⟨rfl, rfl⟩

theorem readLine_written {t : List Char} (q : List Char) (h : Plain t) : readLine (t ++ ' ' :: q) = some (t, ' ' :: q) := by
  obtain ⟨h1, h2⟩ := split_line ' ' t q h.2
  unfold readLine
  simp only [ite_self, h1, h2]
  rw [if_neg (by simp), if_neg (by simp [h.1])]

/-- **C110** (read): of a file with lines of topic, space and query every topic has the last query that was given for it, with the space before it, and no other topic is changed -/
theorem C110_read (tqs : List (List Char × List Char)) (h : ∀ tq ∈ tqs, Plain tq.1) (m : Table) :
    ∃ m', loadQueries m (tqs.map (written ' ')) = some m' ∧ ∀ t, m' t = match lastQuery tqs t with | some q => some (' ' :: q) | none => m t := by
  induction tqs generalizing m with
  | nil => exact ⟨m, rfl, fun t => rfl⟩
  | cons a tqs ih =>
    obtain ⟨t0, q0⟩ := a
    obtain ⟨m', h1, h2⟩ := ih (fun tq htq => h tq (by simp [htq])) (put m t0 (' ' :: q0))
    refine ⟨m', ?_, fun t => ?_⟩
    · rw [List.map_cons, loadQueries]
      rw [show written ' ' (t0, q0) = t0 ++ ' ' :: q0 from rfl, readLine_written q0 (h (t0, q0) (by simp))]
      exact h1
    · rw [h2]
      have e : lastQuery ((t0, q0) :: tqs) t = match lastQuery tqs t with | some q => some q | none => if t0 = t then some q0 else none := by
        unfold lastQuery
        rw [List.reverse_cons, List.find?_append]
        cases hf : tqs.reverse.find? fun tq => decide (tq.1 = t) with
        | some x => simp
        | none =>
          by_cases c : t0 = t
          · simp [c]
          · simp [c]
      rw [e]
      cases lastQuery tqs t with
      | some q => rfl
      | none =>
        dsimp only
        unfold put
        by_cases c : t0 = t
        · rw [if_pos c, if_pos c.symm]
        · rw [if_neg c, if_neg fun e => c e.symm]

theorem dropWhile_space (l : List Char) : l.dropWhile (· != ' ') = [] ↔ ' ' ∉ l := by
  induction l with
  | nil => simp
  | cons c l ih =>
    by_cases e : c = ' '
    · subst e; simp
    · rw [List.dropWhile_cons_of_pos (by simpa using e), ih]
      simp [Ne.symm e]

theorem readLine_none (l : List Char) : readLine l = none ↔ ' ' ∉ l ∨ l.head? = some ' ' := by
  unfold readLine
  simp only [ite_self]
  by_cases c : ' ' ∈ l
  · rw [if_neg (by simpa using c)]
    have hq : queryOf ' ' l ≠ [] := fun e => (dropWhile_space l).1 e c
    have ht : topicOf ' ' l = [] ↔ l.head? = some ' ' := by
      unfold topicOf
      cases l with
      | nil => cases c
      | cons a l =>
        by_cases e : a = ' '
        · subst e; simp
        · rw [List.takeWhile_cons_of_pos (by simpa using e)]
          simp [e]
    by_cases g : topicOf ' ' l = []
    · rw [if_pos (.inl g)]
      exact ⟨fun _ => .inr (ht.1 g), fun _ => rfl⟩
    · rw [if_neg fun o => o.elim g hq]
      exact ⟨fun e => (by cases e), fun e => e.elim (fun e => absurd c e) fun e => absurd (ht.2 e) g⟩
  · rw [if_pos (by simpa using c)]
    exact ⟨fun _ => .inl c, fun _ => rfl⟩

/-- **C110** (refused): a file is refused if and only if one of its lines has no space, or begins with one -/
theorem C110_refused (lines : List (List Char)) (m : Table) : loadQueries m lines = none ↔ ∃ l ∈ lines, ' ' ∉ l ∨ l.head? = some ' ' := by
  induction lines generalizing m with
  | nil => simp [loadQueries]
  | cons l ls ih =>
    rw [loadQueries]
    cases h : readLine l with
    | none =>
      exact ⟨fun _ => ⟨l, by simp, (readLine_none l).1 h⟩, fun _ => rfl⟩
    | some tq =>
      obtain ⟨t, q⟩ := tq
      dsimp only
      rw [ih]
      constructor
      · rintro ⟨x, hx, e⟩; exact ⟨x, by simp [hx], e⟩
      · rintro ⟨x, hx, e⟩
        rcases List.mem_cons.1 hx with c | c
        · subst c
          rw [(readLine_none x).2 e] at h
          cases h
        · exact ⟨x, c, e⟩

theorem readEither_text {l : Line} (h : l.Plain) : readEither l.text = some (l.topic, l.sep :: l.query) := by
  obtain ⟨b, t, q⟩ := l
  obtain ⟨h1, h2, h3⟩ := h
  dsimp only at h1 h2 h3
  cases b with
  | true =>
    show readEither (t ++ '\t' :: q) = some (t, '\t' :: q)
    obtain ⟨e1, e2⟩ := split_line '\t' t q h2
    have ec : (t ++ '\t' :: q).contains '\t' = true := by simp
    unfold readEither
    simp only [ec, if_true, e1, e2]
    rw [if_neg (by simp), if_neg (by simp [h1])]
  | false =>
    obtain ⟨h3, h4⟩ := h3 rfl
    show readEither (t ++ ' ' :: q) = some (t, ' ' :: q)
    obtain ⟨e1, e2⟩ := split_line ' ' t q h3
    have ec : (t ++ ' ' :: q).contains '\t' = false := by simp [h2, h4]
    have es : (t ++ ' ' :: q).contains ' ' = true := by simp
    unfold readEither
    simp only [ec, Bool.false_eq_true, if_false, e1, e2, es]
    rw [if_neg (by simp), if_neg (by simp [h1])]

/-- the last line for a topic -/
def lastLine (ls : List Line) (t : List Char) : Option Line := ls.reverse.find? fun l => l.topic = t

/-- **C110** (either separator): in the test of a changing collection lines may have a tab or a space after the topic; every topic has the last query that was given for it, with the separator before it, and the topics are
those of the lines, in their order -/
theorem C110_either (ls : List Line) (h : ∀ l ∈ ls, l.Plain) (m : Table) (topics : List (List Char)) :
    ∃ m', loadTopics m topics (ls.map Line.text) = some (m', topics ++ ls.map (·.topic)) ∧ ∀ t, m' t = match lastLine ls t with | some l => some (l.sep :: l.query) | none => m t := by
  induction ls generalizing m topics with
  | nil => exact ⟨m, by simp [loadTopics], fun t => rfl⟩
  | cons a ls ih =>
    obtain ⟨m', h1, h2⟩ := ih (fun l hl => h l (by simp [hl])) (put m a.topic (a.sep :: a.query)) (topics ++ [a.topic])
    refine ⟨m', ?_, fun t => ?_⟩
    · rw [List.map_cons, loadTopics, readEither_text (h a (by simp))]
      dsimp only
      rw [h1]
      simp
    · rw [h2]
      have e : lastLine (a :: ls) t = match lastLine ls t with | some l => some l | none => if a.topic = t then some a else none := by
        unfold lastLine
        rw [List.reverse_cons, List.find?_append]
        cases hf : ls.reverse.find? fun l => decide (l.topic = t) with
        | some x => simp
        | none =>
          by_cases c : a.topic = t
          · simp [c]
          · simp [c]
      rw [e]
      cases lastLine ls t with
      | some q => rfl
      | none =>
        dsimp only
        unfold put
        by_cases c : a.topic = t
        · rw [if_pos c, if_pos c.symm]
        · rw [if_neg c, if_neg fun e => c e.symm]

/-- **A tab is no separator**: of a line with a tab after the topic, the topic that is read has the first word of the query in it, and the one that was meant has no query; when the query is one word the file is refused -/
theorem C110_tab (t w q : List Char) (ht : Plain t) (hw : ' ' ∉ w) :
    (∃ m, loadQueries (fun _ => none) [t ++ '\t' :: w ++ ' ' :: q] = some m ∧ m (t ++ '\t' :: w) = some (' ' :: q) ∧ m t = none) ∧ loadQueries (fun _ => none) [t ++ '\t' :: w] = none := by
  have hp : Plain (t ++ '\t' :: w) := ⟨by simp, by simp [ht.2, hw]⟩
  refine ⟨⟨put (fun _ => none) (t ++ '\t' :: w) (' ' :: q), ?_, ?_, ?_⟩, ?_⟩
  · rw [loadQueries, readLine_written q hp]
    rfl
  · exact if_pos rfl
  · exact if_neg (by
      intro e
      have := congrArg List.length e
      simp at this)
  · rw [C110_refused]
    exact ⟨_, by simp, .inl hp.2⟩

/-- **An empty query is none that is refused**: the space before it is part of the query, so that it is never empty -/
theorem C110_empty (t : List Char) (ht : Plain t) : ∃ m, loadQueries (fun _ => none) [t ++ [' ']] = some m ∧ m t = some [' '] :=
  ⟨put (fun _ => none) t [' '], by rw [loadQueries, readLine_written [] ht]; rfl, if_pos rfl⟩

/-! ### examples -/

example : ((loadQueries (fun _ => none) [['4', ' ', 'a', ' ', 'b'], ['5', ' ', 'c'], ['4', ' ', 'd']]).bind fun m => m ['4']) = some [' ', 'd'] := by decide +kernel
example : ((loadQueries (fun _ => none) [['4', ' ', 'a', ' ', 'b'], ['5', ' ', 'c']]).bind fun m => m ['4']) = some [' ', 'a', ' ', 'b'] := by decide +kernel
example : ((loadTopics (fun _ => none) [] [['4', '\t', 'a', ' ', 'b'], ['5', ' ', 'c']]).bind fun m => m.1 ['4']) = some ['\t', 'a', ' ', 'b'] := by decide +kernel
example : (⟨true, ['4'], ['a', ' ', 'b']⟩ : Line).Plain ∧ (⟨false, ['5'], ['c']⟩ : Line).Plain := by simp [Line.Plain]
example : Plain ['4', '0', '1'] := by simp [Plain]

end Verif.Props
