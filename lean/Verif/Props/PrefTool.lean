import Verif.PrefTool.Model
import Verif.Judge.Proof
/-
  C96: each preference gives a line with the question, the text of the better item and the text of the other one.
-/
namespace Verif.Props
open Verif.PrefTool

/-! ### lines -/

theorem cut_at {a : List Char} (h : ' ' ∉ a) (b : List Char) : cut (a ++ ' ' :: b) = some (a, b) := by
  have h1 : ∀ (a : List Char), ' ' ∉ a → (a ++ ' ' :: b).takeWhile (· != ' ') = a ∧ (a ++ ' ' :: b).dropWhile (· != ' ') = ' ' :: b := by
    intro a
    induction a with
    | nil => intro _; exact ⟨rfl, rfl⟩
    | cons c a ih =>
      intro h
      simp only [List.mem_cons, not_or] at h
      obtain ⟨i1, i2⟩ := ih h.2
      have hc : (c != ' ') = true := by simpa using fun e : c = ' ' => h.1 e.symm
      constructor
      · rw [List.cons_append, List.takeWhile_cons_of_pos (by simpa using hc), i1]
      · rw [List.cons_append, List.dropWhile_cons_of_pos (by simpa using hc), i2]
  unfold cut
  rw [if_pos (by simp), (h1 a h).1, (h1 a h).2]
  rfl

theorem read_questions : ∀ (qs : List (List Char × List Char)), (∀ q ∈ qs, Plain q.1 ∧ '\n' ∉ q.2) →
    readQuestions (Verif.Judge.lines (questionsFile qs)) = some (qs.map fun q => (q.1, q.2.map cleanQuestion)) := by
  intro qs
  induction qs with
  | nil => intro _; rfl
  | cons q qs ih =>
    intro h
    obtain ⟨⟨h1, h2⟩, h3⟩ := h q (by simp)
    have e : questionsFile (q :: qs) = (q.1 ++ ' ' :: q.2) ++ '\n' :: questionsFile qs := by
      simp [questionsFile]
    rw [e, Verif.Judge.lines_cons (by simp [h2, h3]), readQuestions, cut_at h1, ih (fun x hx => h x (by simp [hx]))]
    rfl

theorem lines_preferences : ∀ (ps : List Preference), (∀ p ∈ ps, p.Good) → Verif.Judge.lines (preferencesFile ps) = ps.map (·.line) := by
  intro ps
  induction ps with
  | nil => intro _; rfl
  | cons p ps ih =>
    intro h
    obtain ⟨h1, h2, h3⟩ := h p (by simp)
    have e : preferencesFile (p :: ps) = p.line ++ '\n' :: preferencesFile ps := by simp [preferencesFile]
    have hb : '\n' ∉ p.best := by
      unfold Preference.best
      split
      · exact h2.2
      · exact h3.2
    rw [e, Verif.Judge.lines_cons (by simp [Preference.line, h1.2, h2.2, h3.2, hb]), ih (fun x hx => h x (by simp [hx])), List.map_cons]

theorem question_of {qs : List (List Char × List Char)} (hd : (qs.map (·.1)).Nodup) {t q : List Char} (h : (t, q) ∈ qs) : questionOf qs t = some q := by
  unfold questionOf
  cases hf : qs.reverse.find? fun x => x.1 == t with
  | none =>
    rw [List.find?_eq_none] at hf
    exact absurd (by simp) (hf (t, q) (List.mem_reverse.2 h))
  | some y =>
    have h1 : y.1 = t := by simpa using List.find?_some hf
    have h2 : y ∈ qs := List.mem_reverse.1 (List.mem_of_find?_eq_some hf)
    have : ∀ (l : List (List Char × List Char)), (l.map (·.1)).Nodup → (t, q) ∈ l → y ∈ l → y = (t, q) := by
      intro l
      induction l with
      | nil => intro _ h; cases h
      | cons z l ih =>
        intro hn ha hb
        rw [List.map_cons, List.nodup_cons] at hn
        rcases List.mem_cons.1 ha with e1 | ha
        · rcases List.mem_cons.1 hb with e2 | hb
          · rw [e1, e2]
          · exact absurd (List.mem_map.2 ⟨y, hb, by rw [h1, ← e1]⟩) hn.1
        · rcases List.mem_cons.1 hb with e2 | hb
          · exact absurd (List.mem_map.2 ⟨_, ha, by rw [← e2, h1]⟩) hn.1
          · exact ih hn.2 ha hb
    rw [this qs hd h h2]
    rfl

/-- what a preference gives -/
theorem training_of {qs : List (List Char × List Char)} {p : Preference} (hg : p.Good) {q b w : List Char} (hq : questionOf qs p.topic = some q) {fetch : List Char → Option (List Char)}
    (hb : fetch p.best = some b) (hw : fetch p.worst = some w) : training qs fetch p.line = some (q ++ '\t' :: (b ++ '\t' :: (w ++ ['\n']))) := by
  obtain ⟨h1, h2, h3⟩ := hg
  unfold training Preference.line
  simp only [cut_at h1.1, hq, cut_at h2.1, cut_at h3.1]
  have hc : p.first = p.best ∨ p.second = p.best := by
    unfold Preference.best
    split
    · exact .inl rfl
    · exact .inr rfl
  have hwo : (if p.first = p.best then p.second else p.first) = p.worst := by
    unfold Preference.best Preference.worst
    cases p.firstIsBest with
    | true => simp
    | false =>
      simp only [Bool.false_eq_true, if_false]
      split
      · rename_i e; exact e.symm
      · rfl
  rw [if_pos hc, hwo, hb]
  simp only [hw]

/-- **C96** (a topic twice): the last question with a topic is the one that is used -/
theorem C96_last_question (a b : List (List Char × List Char)) (t q : List Char) (hg : ∀ x ∈ a ++ (t, q) :: b, Plain x.1 ∧ '\n' ∉ x.2) (hb : t ∉ b.map (·.1)) :
    (readQuestions (Verif.Judge.lines (questionsFile (a ++ (t, q) :: b)))).bind (questionOf · t) = some (q.map cleanQuestion) := by
  rw [read_questions _ hg]
  simp only [Option.bind_some, questionOf, List.map_append, List.map_cons, List.reverse_append, List.reverse_cons, List.append_assoc, List.find?_append]
  have h1 : (b.map fun q => (q.1, q.2.map cleanQuestion)).reverse.find? (fun x => x.1 == t) = none := by
    rw [List.find?_eq_none]
    intro x hx hc
    obtain ⟨y, hy, rfl⟩ := List.mem_map.1 (List.mem_reverse.1 hx)
    exact hb (List.mem_map.2 ⟨y, hy, by simpa using hc⟩)
  rw [h1]
  simp

/-! ### bad preferences -/

theorem loop_all {qs : List (List Char × List Char)} {fetch : List Char → Option (List Char)} : ∀ (ls : List (List Char)) (bad : Nat), bad + badCount qs fetch ls.dropLast ≤ 40 →
    loop qs fetch bad ls = (true, (ls.filterMap (training qs fetch)).flatten) := by
  intro ls
  induction ls with
  | nil => intro _ _; rfl
  | cons l ls ih =>
    intro bad h
    rw [loop, if_neg (by omega)]
    cases ls with
    | nil => cases ht : training qs fetch l <;> simp [ht, loop]
    | cons k ls =>
      rw [List.dropLast_cons_cons, badCount, List.countP_cons] at h
      cases ht : training qs fetch l with
      | none =>
        simp only [ht, Option.isNone_none, if_true] at h
        rw [ih (bad + 1) (by unfold badCount; omega), List.filterMap_cons_none ht]
      | some t =>
        simp only [ht, Option.isNone_some, Bool.false_eq_true, if_false] at h
        rw [ih bad (by unfold badCount; omega), List.filterMap_cons_some ht]
        rfl

/-- **C96** (bad preferences): when at most 40 of the lines before the last one are bad, the program ends with 0 and the lines that are not bad give what they give, in order -/
theorem C96_bad {questions preferences : List Char} {fetch : List Char → Option (List Char)} {qs : List (List Char × List Char)} (hq : readQuestions (Verif.Judge.lines questions) = some qs)
    (h : badCount qs fetch (Verif.Judge.lines preferences).dropLast ≤ 40) :
    main questions preferences fetch = (true, ((Verif.Judge.lines preferences).filterMap (training qs fetch)).flatten) := by
  unfold main
  rw [hq]
  exact loop_all _ 0 (by omega)

/-- **C96** (too many): a line after 41 bad ones ends the program with 1, after the output for the lines before it -/
theorem C96_stop {questions preferences : List Char} {fetch : List Char → Option (List Char)} {qs : List (List Char × List Char)} (hq : readQuestions (Verif.Judge.lines questions) = some qs)
    {before after : List (List Char)} {line : List Char} (hl : Verif.Judge.lines preferences = before ++ line :: after) (h : badCount qs fetch before = 41)
    (hmin : badCount qs fetch before.dropLast ≤ 40) :
    main questions preferences fetch = (false, (before.filterMap (training qs fetch)).flatten) := by
  have all : ∀ (before : List (List Char)) (bad : Nat), bad + badCount qs fetch before = 41 → bad + badCount qs fetch before.dropLast ≤ 40 →
      loop qs fetch bad (before ++ line :: after) = (false, (before.filterMap (training qs fetch)).flatten) := by
    intro before
    induction before with
    | nil =>
      intro bad h1 h2
      simp only [badCount, List.dropLast_nil, List.countP_nil] at h1 h2
      omega
    | cons l ls ih =>
      intro bad h1 h2
      rw [List.cons_append, loop, if_neg (by omega)]
      cases ls with
      | nil =>
        cases ht : training qs fetch l with
        | none =>
          simp only [badCount, List.countP_cons, ht, Option.isNone_none, if_true, List.countP_nil] at h1
          simp only [List.nil_append, loop]
          rw [if_pos (by omega), List.filterMap_cons_none ht]
          rfl
        | some t =>
          simp only [badCount, List.countP_cons, ht, Option.isNone_some, Bool.false_eq_true, if_false, List.countP_nil, List.dropLast_singleton] at h1 h2
          omega
      | cons k ls =>
        rw [List.dropLast_cons_cons, badCount, List.countP_cons] at h2
        rw [badCount, List.countP_cons] at h1
        cases ht : training qs fetch l with
        | none =>
          simp only [ht, Option.isNone_none, if_true] at h1 h2
          rw [List.filterMap_cons_none ht]
          exact ih (bad + 1) (by unfold badCount; omega) (by unfold badCount; omega)
        | some t =>
          simp only [ht, Option.isNone_some, Bool.false_eq_true, if_false] at h1 h2
          simp only
          rw [ih bad (by unfold badCount; omega) (by unfold badCount; omega), List.filterMap_cons_some ht]
          rfl
  unfold main
  rw [hq, hl]
  exact all before 0 (by omega) (by omega)

/-- **C96** (questions): a line without a blank among the questions ends the program with 1 and without output -/
theorem C96_bad_question (fetch : List Char → Option (List Char)) (qs : List (List Char × List Char)) (hg : ∀ q ∈ qs, Plain q.1 ∧ '\n' ∉ q.2) (line rest preferences : List Char) (hl : Plain line) :
    main (questionsFile qs ++ (line ++ '\n' :: rest)) preferences fetch = (false, []) := by
  have : ∀ (qs : List (List Char × List Char)), (∀ q ∈ qs, Plain q.1 ∧ '\n' ∉ q.2) → readQuestions (Verif.Judge.lines (questionsFile qs ++ (line ++ '\n' :: rest))) = none := by
    intro qs
    induction qs with
    | nil =>
      intro _
      have e : questionsFile [] ++ (line ++ '\n' :: rest) = line ++ '\n' :: rest := rfl
      rw [e, Verif.Judge.lines_cons hl.2, readQuestions]
      have : cut line = none := if_neg hl.1
      rw [this]
    | cons q qs ih =>
      intro h
      obtain ⟨⟨h1, h2⟩, h3⟩ := h q (by simp)
      have e : questionsFile (q :: qs) ++ (line ++ '\n' :: rest) = (q.1 ++ ' ' :: q.2) ++ '\n' :: (questionsFile qs ++ (line ++ '\n' :: rest)) := by
        simp [questionsFile]
      rw [e, Verif.Judge.lines_cons (by simp [h2, h3]), readQuestions, cut_at h1, ih (fun x hx => h x (by simp [hx]))]
      rfl
  unfold main
  rw [this qs hg]

/-! ### items -/

theorem hasPhrase_iff (p : List (List Char)) : ∀ ws : List (List Char), hasPhrase p ws = true ↔ ∃ a b, ws = a ++ (p ++ b) := by
  intro ws
  induction ws with
  | nil =>
    simp only [hasPhrase, List.isPrefixOf_iff_prefix]
    constructor
    · intro h
      obtain ⟨t, ht⟩ := h
      exact ⟨[], t, by rw [List.nil_append, ht]⟩
    · rintro ⟨a, b, h⟩
      have := h.symm
      simp only [List.append_eq_nil_iff] at this
      rw [this.2.1]
      exact List.prefix_refl _
  | cons w ws ih =>
    simp only [hasPhrase, Bool.or_eq_true, List.isPrefixOf_iff_prefix, ih]
    constructor
    · rintro (⟨t, ht⟩ | ⟨a, b, e⟩)
      · exact ⟨[], t, by rw [List.nil_append, ht]⟩
      · exact ⟨w :: a, b, by rw [e]; rfl⟩
    · rintro ⟨a, b, e⟩
      cases a with
      | nil => exact .inl ⟨b, by rw [e]; rfl⟩
      | cons x a =>
        simp only [List.cons_append, List.cons.injEq] at e
        exact .inr ⟨a, b, e.2⟩

/-- **C96** (items), in part: an identifier of two words, with which its item begins and which no item before it has anywhere in it, gives the text of the item after the
identifier, with blanks for newlines and tabs.  Without that it may be another item, or a piece of the identifier or none of the first word: `C96_other`, `C96_short`, `C96_long`. -/
theorem C96_fetch_partial (words : List Char → List (List Char)) (before after : List (List Token)) (i j : Token) (text : List Token) (identifier : List Char)
    (hw : words identifier = [i.1, j.1]) (hb : ∀ item ∈ before, ¬ ∃ a b, item.map (·.1) = a ++ ([i.1, j.1] ++ b)) :
    fetchText words (before ++ (i :: j :: text) :: after) identifier = some ((text.flatMap (·.2)).map clean) := by
  unfold fetchText
  rw [if_neg (by rw [hw]; simp), hw]
  have h1 : before.find? (fun item => hasPhrase [i.1, j.1] (item.map (·.1))) = none := by
    rw [List.find?_eq_none]
    intro item hi hc
    exact hb item hi ((hasPhrase_iff _ _).1 hc)
  have h2 : hasPhrase [i.1, j.1] ((i :: j :: text).map (·.1)) = true := (hasPhrase_iff _ _).2 ⟨[], text.map (·.1), rfl⟩
  rw [List.find?_append, h1, Option.none_or, List.find?_cons_of_pos (p := fun item : List Token => hasPhrase [i.1, j.1] (item.map (·.1))) h2]
  rfl

/-- what is fetched has no tabs and no newlines -/
theorem fetch_clean {words : List Char → List (List Char)} {items : List (List Token)} {x t : List Char} (h : fetchText words items x = some t) : '\t' ∉ t ∧ '\n' ∉ t := by
  unfold fetchText at h
  split at h
  · cases h
  · split at h
    · cases h
    · simp only [Option.some.injEq] at h
      subst h
      constructor <;>
      · intro hc
        obtain ⟨c, -, hc⟩ := List.mem_map.1 hc
        unfold clean at hc
        split at hc
        · cases hc
        · rename_i hn
          rw [hc] at hn
          simp at hn

/-- **Another item is taken when it mentions the identifier** and comes first -/
theorem C96_other (words : List Char → List (List Char)) (a b : Token) (text item : List Token) (after : List (List Token)) (identifier : List Char) (h0 : words identifier ≠ [])
    (h : ∃ u v, text.map (·.1) = u ++ (words identifier ++ v)) :
    fetchText words ((a :: b :: text) :: item :: after) identifier = some ((text.flatMap (·.2)).map clean) := by
  obtain ⟨u, v, e⟩ := h
  unfold fetchText
  rw [if_neg h0]
  have h2 : hasPhrase (words identifier) ((a :: b :: text).map (·.1)) = true := (hasPhrase_iff _ _).2 ⟨a.1 :: b.1 :: u, v, by simp [e]⟩
  rw [List.find?_cons_of_pos (p := fun item : List Token => hasPhrase (words identifier) (item.map (·.1))) h2]
  rfl

/-- **With an identifier of one word the first word of the text is lost** -/
theorem C96_short (words : List Char → List (List Char)) (i first : Token) (text : List Token) (after : List (List Token)) (identifier : List Char) (hw : words identifier = [i.1]) :
    fetchText words ((i :: first :: text) :: after) identifier = some ((text.flatMap (·.2)).map clean) := by
  unfold fetchText
  rw [if_neg (by rw [hw]; simp), hw]
  have h2 : hasPhrase [i.1] ((i :: first :: text).map (·.1)) = true := (hasPhrase_iff _ _).2 ⟨[], (first :: text).map (·.1), rfl⟩
  rw [List.find?_cons_of_pos (p := fun item : List Token => hasPhrase [i.1] (item.map (·.1))) h2]
  rfl

/-- **With an identifier of three words its last word is left in the text** -/
theorem C96_long (words : List Char → List (List Char)) (i j k : Token) (text : List Token) (after : List (List Token)) (identifier : List Char) (hw : words identifier = [i.1, j.1, k.1]) :
    fetchText words ((i :: j :: k :: text) :: after) identifier = some ((k.2 ++ text.flatMap (·.2)).map clean) := by
  unfold fetchText
  rw [if_neg (by rw [hw]; simp), hw]
  have h2 : hasPhrase [i.1, j.1, k.1] ((i :: j :: k :: text).map (·.1)) = true := (hasPhrase_iff _ _).2 ⟨[], text.map (·.1), rfl⟩
  rw [List.find?_cons_of_pos (p := fun item : List Token => hasPhrase [i.1, j.1, k.1] (item.map (·.1))) h2]
  rfl

/-! ### the lines for training -/

theorem tab_one : ∀ {a : List Char}, '\t' ∉ a → tabFields a = [a] := by
  intro a
  induction a with
  | nil => intro _; rfl
  | cons c a ih =>
    intro h
    simp only [List.mem_cons, not_or] at h
    rw [tabFields, if_neg (fun e => h.1 e.symm), ih h.2]

theorem tab_at : ∀ {a : List Char}, '\t' ∉ a → ∀ b, tabFields (a ++ '\t' :: b) = a :: tabFields b := by
  intro a
  induction a with
  | nil => intro _ b; rw [List.nil_append, tabFields, if_pos rfl]
  | cons c a ih =>
    intro h b
    simp only [List.mem_cons, not_or] at h
    rw [List.cons_append, tabFields, if_neg (fun e => h.1 e.symm), ih h.2]

theorem cleaned_plain {q : List Char} {c : Char} (hc : c = '\t' ∨ c = '\n') (h : c ∉ q) : c ∉ q.map cleanQuestion := by
  intro hm
  obtain ⟨d, hd, e⟩ := List.mem_map.1 hm
  unfold cleanQuestion at e
  split at e
  · subst e; rcases hc with hc | hc <;> cases hc
  · exact h (e ▸ hd)

/-- **C96**, in part: for questions without tabs and for all preferences between items that can be found, the program ends with 0, and what it prints is, line by line and at the tabs, the
question, the text of the better item and the text of the other one.  Missing: questions with tabs, `C96_tab`. -/
theorem C96_pairs_partial (words : List Char → List (List Char)) (items : List (List Token)) (qs : List (List Char × List Char)) (hq : ∀ q ∈ qs, Plain q.1 ∧ '\n' ∉ q.2 ∧ '\t' ∉ q.2) (hd : (qs.map (·.1)).Nodup)
    (ps : List Preference) (hg : ∀ p ∈ ps, p.Good) (question : List Char → List Char) (hk : ∀ p ∈ ps, (p.topic, question p.topic) ∈ qs)
    (text : List Char → List Char) (ht : ∀ p ∈ ps, fetchText words items p.first = some (text p.first) ∧ fetchText words items p.second = some (text p.second)) :
    (main (questionsFile qs) (preferencesFile ps) (fetchText words items)).1 = true ∧
      (Verif.Judge.lines (main (questionsFile qs) (preferencesFile ps) (fetchText words items)).2).map tabFields =
        ps.map fun p => [(question p.topic).map cleanQuestion, text p.best, text p.worst] := by
  have hr := read_questions qs fun q hq' => ⟨(hq q hq').1, (hq q hq').2.1⟩
  have hbw : ∀ p ∈ ps, fetchText words items p.best = some (text p.best) ∧ fetchText words items p.worst = some (text p.worst) := by
    intro p hp
    obtain ⟨h1, h2⟩ := ht p hp
    unfold Preference.best Preference.worst
    cases p.firstIsBest with
    | true => exact ⟨h1, h2⟩
    | false => exact ⟨h2, h1⟩
  have htr : ∀ p ∈ ps, training (qs.map fun q => (q.1, q.2.map cleanQuestion)) (fetchText words items) p.line =
      some ((question p.topic).map cleanQuestion ++ '\t' :: (text p.best ++ '\t' :: (text p.worst ++ ['\n']))) := by
    intro p hp
    refine training_of (hg p hp) (question_of ?_ ?_) (hbw p hp).1 (hbw p hp).2
    · rw [List.map_map]
      exact hd
    · exact List.mem_map.2 ⟨_, hk p hp, rfl⟩
  have hbad : badCount (qs.map fun q => (q.1, q.2.map cleanQuestion)) (fetchText words items) (Verif.Judge.lines (preferencesFile ps)).dropLast ≤ 40 := by
    have : badCount (qs.map fun q => (q.1, q.2.map cleanQuestion)) (fetchText words items) (Verif.Judge.lines (preferencesFile ps)).dropLast = 0 := by
      unfold badCount
      rw [List.countP_eq_zero]
      intro l hl
      have hl := List.dropLast_subset _ hl
      rw [lines_preferences ps hg] at hl
      obtain ⟨p, hp, rfl⟩ := List.mem_map.1 hl
      rw [htr p hp]
      simp
    omega
  rw [C96_bad hr hbad, lines_preferences ps hg]
  refine ⟨rfl, ?_⟩
  simp only
  clear hbad
  induction ps with
  | nil => rfl
  | cons p ps ih =>
    have h1 := htr p (by simp)
    obtain ⟨f1, f2⟩ := hbw p (by simp)
    obtain ⟨b1, b2⟩ := fetch_clean f1
    obtain ⟨w1, w2⟩ := fetch_clean f2
    obtain ⟨-, q1, q2⟩ := hq _ (hk p (by simp))
    have c1 := cleaned_plain (.inl rfl) q2
    have c2 := cleaned_plain (.inr rfl) q1
    rw [List.map_cons, List.filterMap_cons_some h1, List.flatten_cons]
    have e : ∀ rest : List Char, ((question p.topic).map cleanQuestion ++ '\t' :: (text p.best ++ '\t' :: (text p.worst ++ ['\n']))) ++ rest =
        ((question p.topic).map cleanQuestion ++ '\t' :: (text p.best ++ '\t' :: text p.worst)) ++ '\n' :: rest := by
      intro rest; simp
    rw [e, Verif.Judge.lines_cons (by simp only [List.mem_append, List.mem_cons, not_or]; exact ⟨c2, by decide, b2, by decide, w2⟩), List.map_cons, tab_at c1, tab_at b1, tab_one w1,
      ih (fun x hx => hg x (by simp [hx])) (fun x hx => hk x (by simp [hx])) (fun x hx => ht x (by simp [hx])) (fun x hx => hbw x (by simp [hx])) (fun x hx => htr x (by simp [hx])), List.map_cons]

/-- **A tab in a question gives a line with a field too many** -/
theorem C96_tab {qs : List (List Char × List Char)} {p : Preference} (hg : p.Good) {words : List Char → List (List Char)} {items : List (List Token)} {u v b w : List Char}
    (hu : '\t' ∉ u) (hv : '\t' ∉ v) (hq : questionOf qs p.topic = some (u ++ '\t' :: v)) (hb : fetchText words items p.best = some b) (hw : fetchText words items p.worst = some w) :
    ∃ line, training qs (fetchText words items) p.line = some (line ++ ['\n']) ∧ tabFields line = [u, v, b, w] := by
  refine ⟨u ++ '\t' :: (v ++ '\t' :: (b ++ '\t' :: w)), ?_, ?_⟩
  · rw [training_of hg hq hb hw]
    simp
  · rw [tab_at hu, tab_at hv, tab_at (fetch_clean hb).1, tab_one (fetch_clean hw).1]

/-- **A preference of an item to itself is taken**: a line with the same text twice -/
theorem C96_itself {qs : List (List Char × List Char)} {topic x q b : List Char} (ht : Plain topic) (hx : Plain x) {fetch : List Char → Option (List Char)} (hq : questionOf qs topic = some q) (hb : fetch x = some b) :
    training qs fetch (topic ++ ' ' :: (x ++ ' ' :: (x ++ ' ' :: x))) = some (q ++ '\t' :: (b ++ '\t' :: (b ++ ['\n']))) :=
  training_of (p := ⟨topic, x, x, true⟩) ⟨ht, hx, hx⟩ hq hb hb

/-- **41 bad preferences are not too many when nothing comes after them**: any file, however bad, that has at most 41 lines ends with 0 -/
theorem C96_lenient {questions preferences : List Char} {fetch : List Char → Option (List Char)} {qs : List (List Char × List Char)} (hq : readQuestions (Verif.Judge.lines questions) = some qs)
    (h : (Verif.Judge.lines preferences).length ≤ 41) : (main questions preferences fetch).1 = true := by
  rw [C96_bad hq]
  have h1 : badCount qs fetch (Verif.Judge.lines preferences).dropLast ≤ (Verif.Judge.lines preferences).dropLast.length := List.countP_le_length
  rw [List.length_dropLast] at h1
  omega

/-! ### examples -/

/-- words at blanks, in an item of the collection `d 1`, `d 2` -/
def prefWords (t : List Char) : List (List Char) := t.filterMap fun c => if c = '-' then none else some [c]

def prefItems : List (List Token) :=
  [[(['d'], ['d', '-']), (['1'], ['1', '\n']), (['a'], ['a', '\t']), (['b'], ['b'])],
   [(['d'], ['d', '-']), (['2'], ['2', '\n']), (['c'], ['c'])]]

def prefQuestions : List (List Char × List Char) := [(['7'], ['w', 'h', 'y', '\r'])]
def somePreferences : List Preference := [⟨['7'], ['d', '-', '1'], ['d', '-', '2'], false⟩, ⟨['7'], ['d', '-', '1'], ['d', '-', '2'], true⟩]

example : fetchText prefWords prefItems ['d', '-', '2'] = some ['c'] := by decide
example : fetchText prefWords prefItems ['d', '-', '2'] = some ['c'] :=
  C96_fetch_partial prefWords [[(['d'], ['d', '-']), (['1'], ['1', '\n']), (['a'], ['a', '\t']), (['b'], ['b'])]] [] (['d'], ['d', '-']) (['2'], ['2', '\n']) [(['c'], ['c'])] _ rfl (by
    intro item hi
    rw [List.mem_singleton] at hi
    subst hi
    rw [← hasPhrase_iff]
    decide)
example : main (questionsFile prefQuestions) (preferencesFile somePreferences) (fetchText prefWords prefItems) =
    (true, ['w', 'h', 'y', ' ', '\t', 'c', '\t', 'a', ' ', 'b', '\n', 'w', 'h', 'y', ' ', '\t', 'a', ' ', 'b', '\t', 'c', '\n']) := by decide
example := C96_pairs_partial prefWords prefItems prefQuestions (by decide) (by decide) somePreferences (by decide) (fun _ => ['w', 'h', 'y', '\r']) (by decide)
  (fun x => if x = ['d', '-', '1'] then ['a', ' ', 'b'] else ['c']) (by decide)
example : (readQuestions (Verif.Judge.lines (questionsFile [(['7'], ['a']), (['7'], ['b'])]))).bind (questionOf · ['7']) = some ['b'] := C96_last_question [(['7'], ['a'])] [] ['7'] ['b'] (by decide) (by decide)
-- a bad line between good ones
example : main (questionsFile prefQuestions) (preferencesFile (somePreferences.take 1) ++ ['x', '\n'] ++ preferencesFile (somePreferences.drop 1)) (fetchText prefWords prefItems) =
    (true, ['w', 'h', 'y', ' ', '\t', 'c', '\t', 'a', ' ', 'b', '\n', 'w', 'h', 'y', ' ', '\t', 'a', ' ', 'b', '\t', 'c', '\n']) := by decide
-- 41 bad lines, and then one more
example : (main (questionsFile prefQuestions) ((List.replicate 41 ['x', '\n']).flatten) fun _ => none).1 = true := by decide +kernel
example : (main (questionsFile prefQuestions) ((List.replicate 42 ['x', '\n']).flatten) fun _ => none).1 = false := by decide +kernel
-- an item that mentions another one
example : fetchText prefWords [[(['d'], ['d', '-']), (['1'], ['1']), (['d'], ['d', '-']), (['2'], ['2'])], [(['d'], ['d', '-']), (['2'], ['2']), (['c'], ['c'])]] ['d', '-', '2'] = some ['d', '-', '2'] :=
  C96_other _ _ _ _ _ _ _ (by decide) ⟨[], [], rfl⟩

end Verif.Props
