import Verif.CastTool.Model
import Verif.Props.Tune
/-
  C98: the programs that answer questions with threads print whole runs, and what they ask is what is in the question.
-/
namespace Verif.Props
open Verif.CastTool

/-! ### queries -/

theorem blanks_one : ∀ {a : List Char}, ' ' ∉ a → blanks a = [a] := by
  intro a
  induction a with
  | nil => intro _; rfl
  | cons c a ih =>
    intro h
    simp only [List.mem_cons, not_or] at h
    rw [blanks, if_neg (fun e => h.1 e.symm), ih h.2]

theorem blanks_at : ∀ {a : List Char}, ' ' ∉ a → ∀ b, blanks (a ++ ' ' :: b) = a :: blanks b := by
  intro a
  induction a with
  | nil => intro _ b; rw [List.nil_append, blanks, if_pos rfl]
  | cons c a ih =>
    intro h b
    simp only [List.mem_cons, not_or] at h
    rw [List.cons_append, blanks, if_neg (fun e => h.1 e.symm), ih h.2]

theorem blanks_words : ∀ (ks : List (List Char)) (k : List Char), (∀ w ∈ k :: ks, ' ' ∉ w) → blanks (k ++ ks.flatMap fun w => ' ' :: w) = k :: ks := by
  intro ks
  induction ks with
  | nil => intro k h; rw [List.flatMap_nil, List.append_nil, blanks_one (h k (by simp))]
  | cons v ks ih =>
    intro k h
    rw [List.flatMap_cons, List.cons_append, blanks_at (h k (by simp)), ih v (fun w hw => h w (by simp [hw]))]

/-- **C98** (passages): the query has the words of the question, in order, without stopwords when that is asked for; when no words are left it is the question -/
theorem C98_passage_query (removeStops : Bool) (stop : List Char → Bool) (words : List (List Char)) (hw : ∀ w ∈ words, ' ' ∉ w) (question : List Char) :
    (passageQuery removeStops stop words question = question ∧ ∀ w ∈ words, removeStops = true ∧ stop w = true) ∨
      blanks (passageQuery removeStops stop words question) = words.filter fun w => !removeStops || !stop w := by
  unfold passageQuery
  cases hk : words.filter fun w => !removeStops || !stop w with
  | nil =>
    refine .inl ⟨rfl, ?_⟩
    intro w hw'
    have := List.filter_eq_nil_iff.1 hk w hw'
    simpa using this
  | cons k ks =>
    right
    simp only
    apply blanks_words
    intro w hw'
    rw [← hk] at hw'
    exact hw w (List.mem_filter.1 hw').1

/-- **The conversational programs ask for the first word twice**: with two or more words that are no stopwords, these are the words of the query, and the first one before them again -/
theorem C98_doubled (stop : List Char → Bool) (words : List (List Char)) (hw : ∀ w ∈ words, ' ' ∉ w) (question k v : List Char) (ks : List (List Char)) (hk : words.filter (fun w => !stop w) = k :: v :: ks) :
    blanks (castQuery stop words question) = k :: k :: v :: ks := by
  have hall : ∀ w ∈ k :: v :: ks, ' ' ∉ w := by
    intro w hw'
    rw [← hk] at hw'
    exact hw w (List.mem_filter.1 hw').1
  unfold castQuery
  simp only [hk, List.length_cons, List.headD_cons]
  rw [if_pos (by omega)]
  exact blanks_words _ _ (by
    intro w hw'
    rcases List.mem_cons.1 hw' with e | hw'
    · rw [e]; exact hall k (by simp)
    · exact hall w hw')

/-- **C98** (conversations), in part: no stopword is in a query of words.  Missing: the first word is there twice, and a question with a single keyword is asked with its stopwords. -/
theorem C98_cast_query_partial (stop : List Char → Bool) (words : List (List Char)) (hw : ∀ w ∈ words, ' ' ∉ w) (question : List Char) (h : 2 ≤ (words.filter fun w => !stop w).length) (w : List Char) :
    w ∈ blanks (castQuery stop words question) ↔ w ∈ words ∧ stop w = false := by
  cases hk : words.filter fun w => !stop w with
  | nil => rw [hk] at h; simp at h
  | cons k ks =>
    cases ks with
    | nil => rw [hk] at h; simp at h
    | cons v ks =>
      rw [C98_doubled stop words hw question k v ks hk]
      have e : w ∈ k :: k :: v :: ks ↔ w ∈ words.filter fun w => !stop w := by
        rw [hk]
        simp only [List.mem_cons]
        constructor
        · rintro (h | h | h)
          · exact .inl h
          · exact .inl h
          · exact .inr h
        · rintro (h | h)
          · exact .inl h
          · exact .inr (.inr h)
      rw [e, List.mem_filter]
      simp

/-- **A question with one keyword is asked as it is**, with its stopwords -/
theorem C98_single (stop : List Char → Bool) (words : List (List Char)) (question : List Char) (h : (words.filter fun w => !stop w).length ≤ 1) : castQuery stop words question = question := by
  unfold castQuery
  simp only
  exact if_neg (Nat.not_lt.2 h)

/-! ### weights -/

section
variable (stem : List Char → List Char)

theorem zeros_keys : ∀ (weighted : List (List Char × Rat)) (m : List (List Char × Rat)), (m.map (·.1)).Nodup → (∀ x ∈ m, x.2 = 0) →
    let z := weighted.foldl (fun m t => if m.any (fun x => x.1 == stem t.1) then m.map (fun x => if x.1 = stem t.1 then (x.1, (0 : Rat)) else x) else m ++ [(stem t.1, 0)]) m
    (z.map (·.1)).Nodup ∧ (∀ x ∈ z, x.2 = 0) ∧ ∀ s, s ∈ z.map (·.1) ↔ s ∈ m.map (·.1) ∨ ∃ t ∈ weighted, stem t.1 = s := by
  intro weighted
  induction weighted with
  | nil => intro m hn h0; exact ⟨hn, h0, by simp⟩
  | cons t ts ih =>
    intro m hn h0
    simp only [List.foldl_cons]
    by_cases hc : m.any (fun x => x.1 == stem t.1) = true
    · rw [if_pos hc]
      have hsame : (m.map fun x => if x.1 = stem t.1 then (x.1, (0 : Rat)) else x) = m := by
        apply (List.map_congr_left _).trans (List.map_id m)
        intro x hx
        split
        · have := h0 x hx
          rw [id_eq, ← this]
        · rfl
      rw [hsame]
      obtain ⟨h1, h2, h3⟩ := ih m hn h0
      refine ⟨h1, h2, ?_⟩
      intro s
      rw [h3]
      simp only [List.mem_cons, exists_eq_or_imp]
      constructor
      · rintro (h | h)
        · exact .inl h
        · exact .inr (.inr h)
      · rintro (h | h | h)
        · exact .inl h
        · left
          rw [List.any_eq_true] at hc
          obtain ⟨x, hx, e⟩ := hc
          exact List.mem_map.2 ⟨x, hx, by rw [← h]; simpa using e⟩
        · exact .inr h
    · rw [if_neg hc]
      simp only [Bool.not_eq_true, List.any_eq_false, beq_iff_eq] at hc
      obtain ⟨h1, h2, h3⟩ := ih (m ++ [(stem t.1, 0)]) (by
        rw [List.map_append, List.nodup_append]
        refine ⟨hn, by simp, ?_⟩
        intro a ha b hb e
        obtain ⟨x, hx, rfl⟩ := List.mem_map.1 ha
        simp only [List.map_cons, List.map_nil, List.mem_singleton] at hb
        exact hc x hx (e.trans hb)) (by
        intro x hx
        rcases List.mem_append.1 hx with hx | hx
        · exact h0 x hx
        · rw [List.mem_singleton.1 hx])
      refine ⟨h1, h2, ?_⟩
      intro s
      rw [h3]
      simp only [List.map_append, List.map_cons, List.map_nil, List.mem_append, List.mem_cons, List.not_mem_nil, or_false, exists_eq_or_imp]
      constructor
      · rintro ((h | h) | h)
        · exact .inl h
        · exact .inr (.inl h.symm)
        · exact .inr (.inr h)
      · rintro (h | h | h)
        · exact .inl (.inl h)
        · exact .inl (.inr h.symm)
        · exact .inr h

theorem adds_values : ∀ (weighted : List (List Char × Rat)) (m : List (List Char × Rat)),
    weighted.foldl (fun m t => m.map fun x => if x.1 = stem t.1 then (x.1, x.2 + t.2) else x) m =
      m.map fun x => (x.1, x.2 + ((weighted.filter fun t => stem t.1 == x.1).map (·.2)).sum) := by
  intro weighted
  induction weighted with
  | nil => intro m; simp [Rat.add_zero]
  | cons t ts ih =>
    intro m
    rw [List.foldl_cons, ih, List.map_map]
    apply List.map_congr_left
    intro x _
    simp only [Function.comp_apply]
    by_cases hx : x.1 = stem t.1
    · rw [if_pos hx, List.filter_cons_of_pos (by simpa using hx.symm), List.map_cons, List.sum_cons, Rat.add_assoc]
    · rw [if_neg hx, List.filter_cons_of_neg (by simpa using fun e : stem t.1 = x.1 => hx e.symm)]

/-- **C98** (stems), in part: each stem of a term is there once and no other, and has the sum of the weights of its terms.  (With exact numbers.) -/
theorem C98_stems_partial (weighted : List (List Char × Rat)) :
    ((stemmed stem weighted).map (·.1)).Nodup ∧ (∀ s, s ∈ (stemmed stem weighted).map (·.1) ↔ ∃ t ∈ weighted, stem t.1 = s) ∧
      ∀ x ∈ stemmed stem weighted, x.2 = ((weighted.filter fun t => stem t.1 == x.1).map (·.2)).sum := by
  obtain ⟨h1, h2, h3⟩ := zeros_keys stem weighted [] (by simp) (by simp)
  unfold stemmed
  rw [adds_values]
  refine ⟨?_, ?_, ?_⟩
  · rw [List.map_map]
    exact h1
  · intro s
    rw [List.map_map]
    have := h3 s
    simp only [List.map_nil, List.not_mem_nil, false_or] at this
    exact this
  · intro x hx
    obtain ⟨y, hy, rfl⟩ := List.mem_map.1 hx
    simp only
    rw [h2 y hy, Rat.zero_add]

end

/-! ### runs -/

theorem clean_line (t : List Char) : '\n' ∉ t.map Verif.CastTool.clean := by
  intro h
  obtain ⟨c, -, e⟩ := List.mem_map.1 h
  unfold Verif.CastTool.clean at e
  split at e
  · cases e
  · rename_i hn
    rw [e] at hn
    simp at hn

theorem label_upto : ∀ (a b : List Char), ' ' ∉ a → labelOf (a ++ ' ' :: b) = a := by
  intro a b
  unfold labelOf
  induction a with
  | nil => intro _; rfl
  | cons c a ih =>
    intro h
    simp only [List.mem_cons, not_or] at h
    rw [List.cons_append, List.takeWhile_cons_of_pos (by simpa using fun e : c = ' ' => h.1 e.symm), ih h.2]

theorem result_line (passages : Bool) {label : List Char} (h0 : ' ' ∉ label ∧ '\n' ∉ label) (rank : Nat) {r : Result} (hr : r.Good) :
    '\n' ∉ resultLine passages label rank r ∧ labelOf (resultLine passages label rank r) = label := by
  constructor
  · have hd : '\n' ∉ Verif.Names.decimal rank := by
      intro h
      have := (digit_plain ((decimal_facts rank).2.2 _ h)).1
      exact absurd this (by decide)
    unfold resultLine
    cases passages <;> simp [h0.2, hr.1, hr.2, hd, clean_line]
  · unfold resultLine
    rw [List.append_assoc, List.append_assoc, List.cons_append]
    exact label_upto _ _ h0.1

/-- **C98** (lines): the fields of a line are the label, `Q0`, the name, the rank, the score and the name of the run; with passages a tab and the passage come after them, with no tab and no
newline in it, and with all that is no tab or newline where it was -/
theorem C98_line {label : List Char} (h0 : ' ' ∉ label) (rank : Nat) (r : Result) (h1 : ' ' ∉ r.docno) (h2 : ' ' ∉ r.score) :
    blanks (resultLine false label rank r) = [label, ['Q', '0'], r.docno, Verif.Names.decimal rank, r.score, ['c', 'l', 'a', 'c', 'l', 'a', 'r', 'k']] ∧
      ∃ p, resultLine true label rank r = resultLine false label rank r ++ '\t' :: p ∧ '\t' ∉ p ∧ '\n' ∉ p ∧ p.length = r.passage.length ∧
        ∀ (i : Nat) c, r.passage[i]? = some c → p[i]? = some (if c = '\n' ∨ c = '\t' then ' ' else c) := by
  have hd : ' ' ∉ Verif.Names.decimal rank := by
    intro h
    have := (digit_plain ((decimal_facts rank).2.2 _ h)).1
    exact absurd this (by decide)
  constructor
  · have e : resultLine false label rank r = label ++ ' ' :: (['Q', '0'] ++ ' ' :: (r.docno ++ ' ' :: (Verif.Names.decimal rank ++ ' ' :: (r.score ++ ' ' :: ['c', 'l', 'a', 'c', 'l', 'a', 'r', 'k'])))) := by
      unfold resultLine
      simp
    rw [e, blanks_at h0, blanks_at (by decide), blanks_at h1, blanks_at hd, blanks_at h2, blanks_one (by decide)]
  · refine ⟨r.passage.map Verif.CastTool.clean, ?_, ?_, clean_line _, by simp, ?_⟩
    · unfold resultLine
      simp
    · intro h
      obtain ⟨c, -, e⟩ := List.mem_map.1 h
      unfold Verif.CastTool.clean at e
      split at e
      · cases e
      · rename_i hn
        rw [e] at hn
        simp at hn
    · intro i c h
      rw [List.getElem?_map, h]
      rfl

theorem lines_block (passages : Bool) {label : List Char} (h0 : ' ' ∉ label ∧ '\n' ∉ label) : ∀ (rs : List Result), (∀ r ∈ rs, r.Good) → ∀ (rank : Nat) (rest : List Char),
    Verif.Judge.lines (block passages label rank rs ++ rest) = (rs.mapIdx fun i r => resultLine passages label (i + rank) r) ++ Verif.Judge.lines rest := by
  intro rs
  induction rs with
  | nil => intro _ rank rest; rfl
  | cons r rs ih =>
    intro h rank rest
    rw [block, List.append_assoc, List.cons_append, Verif.Judge.lines_cons (result_line passages h0 rank (h r (by simp))).1, ih (fun x hx => h x (by simp [hx])), List.mapIdx_cons, List.cons_append, Nat.zero_add]
    congr 2
    apply congrArg (fun f => List.mapIdx f rs)
    funext i x
    rw [show i + (rank + 1) = i + 1 + rank from by omega]

theorem lines_blocks (passages : Bool) (results : List Char → List Result) : ∀ (ls : List (List Char)), (∀ l ∈ ls, (' ' ∉ l ∧ '\n' ∉ l) ∧ ∀ r ∈ results l, r.Good) →
    Verif.Judge.lines (ls.flatMap fun l => block passages l 1 (results l)) = ls.flatMap fun l => blockLines passages l (results l) := by
  intro ls
  induction ls with
  | nil => intro _; rfl
  | cons l ls ih =>
    intro h
    obtain ⟨h1, h2⟩ := h l (by simp)
    rw [List.flatMap_cons, lines_block passages h1 _ h2, List.flatMap_cons, ih (fun x hx => h x (by simp [hx]))]
    rfl

theorem filter_blocks (passages : Bool) (results : List Char → List Result) (label : List Char) : ∀ (ls : List (List Char)), (∀ l ∈ ls, (' ' ∉ l ∧ '\n' ∉ l) ∧ ∀ r ∈ results l, r.Good) →
    (ls.flatMap fun l => blockLines passages l (results l)).filter (fun x => labelOf x == label) = (List.replicate (ls.count label) (blockLines passages label (results label))).flatten := by
  intro ls
  induction ls with
  | nil => intro _; rfl
  | cons l ls ih =>
    intro h
    obtain ⟨h1, h2⟩ := h l (by simp)
    have hl : ∀ x ∈ blockLines passages l (results l), labelOf x = l := by
      intro x hx
      unfold blockLines at hx
      rw [List.mem_mapIdx] at hx
      obtain ⟨i, hi, rfl⟩ := hx
      exact (result_line passages h1 (i + 1) (h2 _ (List.getElem_mem hi))).2
    rw [List.flatMap_cons, List.filter_append, ih (fun x hx => h x (by simp [hx])), List.count_cons]
    by_cases e : l = label
    · subst e
      rw [List.filter_eq_self.2 (fun x hx => by simpa using hl x hx)]
      simp [List.replicate_succ]
    · rw [List.filter_eq_nil_iff.2 (fun x hx => by rw [hl x hx]; simpa using e)]
      simp [e]

/-- **C98** (runs): for every number of threads and every order in which they run: when they have stopped, the lines with a label are the results for its question, in order of
rank from 1 on, as often as the label is among the questions; all others are there likewise, and none is mixed with another -/
theorem C98_output (passages : Bool) (results : List Char → List Result) (labels : List (List Char)) (h : ∀ l ∈ labels, (' ' ∉ l ∧ '\n' ∉ l) ∧ ∀ r ∈ results l, r.Good)
    (threads : Nat) (ht : 0 < threads) (schedule : List Nat) (hd : ∀ w ∈ (Tune.pool labels threads schedule).workers, w = .done) :
    (∃ order : List (List Char), order.Perm labels ∧ Verif.Judge.lines (output passages results labels threads schedule) = order.flatMap fun l => blockLines passages l (results l)) ∧
      ∀ label, (Verif.Judge.lines (output passages results labels threads schedule)).filter (fun x => labelOf x == label) =
        (List.replicate (labels.count label) (blockLines passages label (results label))).flatten := by
  have hp := C95_threads labels threads ht schedule hd
  have hl := lines_blocks passages results (Tune.pool labels threads schedule).finished (fun l hl => h l (hp.subset hl))
  refine ⟨⟨_, hp, hl⟩, ?_⟩
  intro label
  unfold output
  rw [hl, filter_blocks passages results label _ (fun l hl => h l (hp.subset hl)), hp.count_eq]

/-- **C98** (runs): with labels that are all different, each has its lines once -/
theorem C98_once (passages : Bool) (results : List Char → List Result) (labels : List (List Char)) (hn : labels.Nodup) (h : ∀ l ∈ labels, (' ' ∉ l ∧ '\n' ∉ l) ∧ ∀ r ∈ results l, r.Good)
    (threads : Nat) (ht : 0 < threads) (schedule : List Nat) (hd : ∀ w ∈ (Tune.pool labels threads schedule).workers, w = .done) (label : List Char) (hl : label ∈ labels) :
    (Verif.Judge.lines (output passages results labels threads schedule)).filter (fun x => labelOf x == label) = blockLines passages label (results label) := by
  rw [(C98_output passages results labels h threads ht schedule hd).2, hn.count, if_pos hl]
  simp

theorem nodup_fst {α β : Type} : ∀ {l : List (α × β)}, (l.map (·.1)).Nodup → ∀ {x y}, x ∈ l → y ∈ l → x.1 = y.1 → x = y := by
  intro l
  induction l with
  | nil => intro _ x y h; cases h
  | cons a l ih =>
    intro hn x y hx hy e
    rw [List.map_cons, List.nodup_cons] at hn
    rcases List.mem_cons.1 hx with rfl | hx
    · rcases List.mem_cons.1 hy with rfl | hy
      · rfl
      · exact absurd (List.mem_map.2 ⟨y, hy, e.symm⟩) hn.1
    · rcases List.mem_cons.1 hy with rfl | hy
      · exact absurd (List.mem_map.2 ⟨x, ‹x ∈ l›, e⟩) hn.1
      · exact ih hn.2 hx hy e

/-- **C98** (runs, from the input): when no label is there twice, the lines with a label are the results for its question -/
theorem C98_run (passages : Bool) (answer : List Char → List Result) (ha : ∀ q, ∀ r ∈ answer q, r.Good) (input : List Char) (qs : List (List Char × List Char))
    (hq : RankTool.readQueries (Verif.Judge.lines input) = some qs) (hn : (qs.map (·.1)).Nodup) (hl : ∀ q ∈ qs, ' ' ∉ q.1 ∧ '\n' ∉ q.1)
    (threads : Nat) (ht : 0 < threads) (schedule : List Nat) (hd : ∀ w ∈ (Tune.pool (qs.map (·.1)) threads schedule).workers, w = .done) :
    (castRun passages answer input threads schedule).1 = true ∧ ∀ q ∈ qs,
      (Verif.Judge.lines (castRun passages answer input threads schedule).2).filter (fun x => labelOf x == q.1) = blockLines passages q.1 (answer q.2) := by
  unfold castRun
  rw [hq]
  refine ⟨rfl, ?_⟩
  intro q hm
  simp only
  rw [C98_once passages _ (qs.map (·.1)) hn (by
    intro l h
    obtain ⟨x, hx, rfl⟩ := List.mem_map.1 h
    exact ⟨hl x hx, ha _⟩) threads ht schedule hd q.1 (List.mem_map.2 ⟨q, hm, rfl⟩)]
  have : questionOf qs q.1 = q.2 := by
    unfold questionOf
    have hf : qs.reverse.find? (fun x => x.1 == q.1) ≠ none := by
      intro e
      have := List.find?_eq_none.1 e q (by simpa using hm)
      simp at this
    cases hc : qs.reverse.find? fun x => x.1 == q.1 with
    | none => exact absurd hc hf
    | some x =>
      have h1 : x.1 = q.1 := by simpa using List.find?_some hc
      have h2 : x ∈ qs := by simpa using List.mem_of_find?_eq_some hc
      rw [nodup_fst hn h2 hm h1]
      rfl
  rw [this]

/-- **C98** (bad input): a line without a blank or a tab, or with nothing before the first one, ends the program with 1 and no output -/
theorem C98_bad (passages : Bool) (answer : List Char → List Result) (input : List Char) (threads : Nat) (schedule : List Nat) (h : RankTool.readQueries (Verif.Judge.lines input) = none) :
    castRun passages answer input threads schedule = (false, []) := by
  unfold castRun
  rw [h]

/-- **A label that is there twice is answered twice with the results for its last question**, and never for its first one -/
theorem C98_repeated (passages : Bool) (answer : List Char → List Result) (ha : ∀ q, ∀ r ∈ answer q, r.Good) (input label q1 q2 : List Char)
    (hq : RankTool.readQueries (Verif.Judge.lines input) = some [(label, q1), (label, q2)]) (hl : ' ' ∉ label ∧ '\n' ∉ label)
    (threads : Nat) (ht : 0 < threads) (schedule : List Nat) (hd : ∀ w ∈ (Tune.pool [label, label] threads schedule).workers, w = .done) :
    (Verif.Judge.lines (castRun passages answer input threads schedule).2).filter (fun x => labelOf x == label) = blockLines passages label (answer q2) ++ blockLines passages label (answer q2) := by
  unfold castRun
  rw [hq]
  simp only [List.map_cons, List.map_nil]
  rw [(C98_output passages _ [label, label] (by
    intro l h
    have : l = label := by simpa using h
    rw [this]
    exact ⟨hl, ha _⟩) threads ht schedule hd).2]
  simp [List.replicate, questionOf]

/-- **A label with a blank is not the label of its lines**: a line of input with a tab can have one -/
theorem C98_blank (passages : Bool) (a b : List Char) (h : ' ' ∉ a) (rank : Nat) (r : Result) : labelOf (resultLine passages (a ++ ' ' :: b) rank r) = a := by
  unfold resultLine
  simp only [List.append_assoc, List.cons_append]
  exact label_upto _ _ h

/-! ### random runs -/

/-- **C98** (random runs): all that is printed is in the results, none twice; each label has the same number of results, in order of rank, and as many as there can be -/
theorem C98_random {ρ : Type} (results : List ρ) (labels : List (List Char)) (h0 : labels ≠ []) :
    (deal results labels).map (·.2.2) = (results.take (results.length / labels.length * labels.length)).map some ∧
      (deal results labels).map (fun x => (x.1, x.2.1)) = labels.flatMap fun l => (List.range (results.length / labels.length)).map fun r => (l, r + 1) := by
  have hlen : labels.length ≠ 0 := by simpa using h0
  have hmul : results.length / labels.length * labels.length ≤ results.length := Nat.div_mul_le_self _ _
  generalize hN : results.length / labels.length = n at *
  have key : ∀ (ls : List (List Char)) (i : Nat), i + n * ls.length ≤ results.length →
      (dealFrom n results i ls).map (·.2.2) = ((results.drop i).take (n * ls.length)).map some ∧
        (dealFrom n results i ls).map (fun x => (x.1, x.2.1)) = ls.flatMap fun l => (List.range n).map fun r => (l, r + 1) := by
    intro ls
    induction ls with
    | nil => intro i _; simp [dealFrom]
    | cons l ls ih =>
      intro i hi
      have hs : n * (l :: ls).length = n + n * ls.length := by rw [List.length_cons, Nat.mul_succ, Nat.add_comm]
      rw [hs] at hi
      obtain ⟨i1, i2⟩ := ih (i + n) (by omega)
      rw [dealFrom]
      constructor
      · rw [List.map_append, i1, hs, List.take_add, List.map_append, List.drop_drop]
        congr 1
        rw [List.map_map]
        apply List.ext_getElem?
        intro k
        simp only [List.getElem?_map, List.getElem?_take, List.getElem?_drop]
        by_cases hk : k < n
        · rw [if_pos hk, List.getElem?_range hk]
          simp only [Option.map_some, Function.comp_apply]
          rw [List.getElem?_eq_getElem (by omega)]
          rfl
        · rw [if_neg hk, List.getElem?_eq_none (by simp; omega)]
          rfl
      · rw [List.map_append, i2, List.flatMap_cons, List.map_map]
        rfl
  unfold deal
  rw [if_neg hlen, hN]
  simp only
  by_cases hn : n = 0
  · rw [if_pos hn, hn]
    simp
  · rw [if_neg hn]
    obtain ⟨k1, k2⟩ := key labels 0 (by rw [Nat.zero_add]; omega)
    exact ⟨by simpa using k1, k2⟩

/-! ### examples -/

def someStop (w : List Char) : Bool := w == ['t', 'h', 'e'] || w == ['i', 's']
def someWords : List (List Char) := [['i', 's'], ['t', 'h', 'e'], ['c', 'a', 't'], ['r', 'e', 'd']]

example : passageQuery true someStop someWords [] = ['c', 'a', 't', ' ', 'r', 'e', 'd'] := by decide
example : castQuery someStop someWords [] = ['c', 'a', 't', ' ', 'c', 'a', 't', ' ', 'r', 'e', 'd'] := by decide
example : blanks (castQuery someStop someWords []) = [['c', 'a', 't'], ['c', 'a', 't'], ['r', 'e', 'd']] := C98_doubled someStop someWords (by decide) [] _ _ [] (by decide)
example : castQuery someStop (someWords.take 3) ['?'] = ['?'] := C98_single _ _ _ (by decide)
example : stemmed (fun w => w.take 2) [(['a', 'b', 'c'], 2), (['x', 'y'], 5), (['a', 'b', 'd'], 3)] = [(['a', 'b'], 5), (['x', 'y'], 5)] := by decide +kernel

def castResults (l : List Char) : List Result := if l = ['1'] then [⟨['A'], ['9'], ['x', '\n', 'y']⟩, ⟨['B'], ['8'], []⟩] else [⟨['C'], ['7'], []⟩]
example := C98_line (label := ['1']) (by decide) 12 ⟨['A'], ['9'], ['x', '\n', 'y']⟩ (by decide) (by decide)
example : ∀ l ∈ [['1'], ['2']], (' ' ∉ l ∧ '\n' ∉ l) ∧ ∀ r ∈ castResults l, r.Good := by unfold Result.Good; decide
-- the second question is answered first
example : (Tune.pool [['1'], ['2']] 2 [0, 1, 1, 0, 0, 1]).finished = [['2'], ['1']] ∧ ∀ w ∈ (Tune.pool [['1'], ['2']] 2 [0, 1, 1, 0, 0, 1]).workers, w = .done := by decide
example := C98_once true castResults [['1'], ['2']] (by decide) (by unfold Result.Good; decide) 2 (by decide) [0, 1, 1, 0, 0, 1] (by decide) ['1'] (by decide)
example : RankTool.readQueries (Verif.Judge.lines ['1', ' ', 'w', 'h', 'y', '\n', '2', '\t', 'h', 'o', 'w', '\n']) = some [(['1'], [' ', 'w', 'h', 'y']), (['2'], ['\t', 'h', 'o', 'w'])] := by decide
example : RankTool.readQueries (Verif.Judge.lines ['1', ' ', 'w', '\n', '1', ' ', 'h', '\n']) = some [(['1'], [' ', 'w']), (['1'], [' ', 'h'])] := by decide
example : RankTool.readQueries (Verif.Judge.lines ['1', ' ', 'w', '\n', '1', '\n']) = none := by decide
example := C98_run true (fun _ => castResults ['1']) (fun _ => by unfold Result.Good; decide) ['1', ' ', 'w', 'h', 'y', '\n', '2', '\t', 'h', 'o', 'w', '\n'] [(['1'], [' ', 'w', 'h', 'y']), (['2'], ['\t', 'h', 'o', 'w'])]
  (by decide) (by decide) (by decide) 2 (by decide) [0, 1, 1, 0, 0, 1] (by decide)
example := C98_repeated true (fun _ => castResults ['1']) (fun _ => by unfold Result.Good; decide) ['1', ' ', 'w', '\n', '1', ' ', 'h', '\n'] ['1'] [' ', 'w'] [' ', 'h'] (by decide) (by decide) 1 (by decide) [0, 0, 0, 0, 0] (by decide)
example : deal [10, 11, 12, 13, 14] [['1'], ['2']] = [(['1'], 1, some 10), (['1'], 2, some 11), (['2'], 1, some 12), (['2'], 2, some 13)] := by decide

end Verif.Props
