import Verif.Settings.Model
import Verif.Props.Feeds
/-
  C102: a command that counts terms sets what it was given, counts what it was asked to count, and says so.
-/
namespace Verif.Props
open Verif.Settings
open Verif.Feeds (fieldsFrom)

theorem setting_ok {w : World} {st : Int} {k v : List Char} {s : Warren} {next : Warren → Int × Warren} (hst : st ≠ 0) (h : (setting w st k v s next).1 = 0) :
    setting w st k v s next = next { s with params := put k v s.params } := by
  unfold setting at *
  split at h
  · rw [if_pos (by assumption)]
  · exact absurd h hst

theorem put_same (k v : List Char) (ps : Params) : put k v ps k = v := by unfold put; rw [if_pos rfl]
theorem put_other {k x : List Char} (v : List Char) (ps : Params) (h : x ≠ k) : put k v ps x = ps x := by unfold put; rw [if_neg h]

theorem terms_done {w : World} {s : Warren} (h : (countTerms w s).1 = 0) :
    countTerms w s = (0, ⟨put statisticsKey ['d', 'f'] s.params, some (.terms (s.params containerKey))⟩) ∧ s.params containerKey ≠ [] := by
  unfold countTerms at *
  dsimp only at *
  split at h
  · cases h
  · split at h
    · cases h
    · split at h
      · cases h
      · rename_i h1 h2 h3
        have e := setting_ok (by decide) h
        rw [if_neg h1, if_neg h2, if_neg h3, e]
        exact ⟨rfl, h1⟩

theorem fields_done {w : World} {s : Warren} (h : (countFields w s).1 = 0) :
    countFields w s = (0, ⟨put statisticsKey ['f', 'i', 'e', 'l', 'd'] s.params, some (.fields (contentQuery s) (split (s.params fieldsKey)))⟩) := by
  unfold countFields at *
  dsimp only at *
  split at h
  · cases h
  · split at h
    · cases h
    · split at h
      · cases h
      · split at h
        · cases h
        · rename_i h1 h2 h3 h4
          have e := setting_ok (by decide) h
          rw [if_neg h1, if_neg h2, if_neg h3, if_neg h4, e]

/-- the parameters that the command always sets -/
def baseParams (name c id : List Char) (ps : Params) : Params := put idKey id (put containerKey c (put stemmerKey name ps))

theorem tfDf_done {w : World} {st c id : List Char} {rest : List (List Char)} {s : Warren} (h : (tfDf w (st :: c :: id :: rest) s).1 = 0) :
    ∃ name, w.stemmer st = some name ∧ tfDf w (st :: c :: id :: rest) s = countRest w rest { s with params := baseParams name c id s.params } := by
  unfold tfDf at *
  dsimp only at *
  cases hst : w.stemmer st with
  | none => rw [hst] at h; cases h
  | some name =>
    rw [hst] at h
    dsimp only at *
    refine ⟨name, rfl, ?_⟩
    have e1 := setting_ok (by decide) h
    rw [e1] at h ⊢
    split at h
    · cases h
    · rename_i h2
      have e2 := setting_ok (by decide) h
      rw [if_neg h2, e2]
      rw [e2] at h
      split at h
      · cases h
      · rename_i h3
        have e3 := setting_ok (by decide) h
        rw [if_neg h3, e3]
        rfl

theorem join_split : ∀ (fs : List (List Char)) (last : List Char), (∀ f ∈ fs, '\t' ∉ f) → '\t' ∉ last → last ≠ [] → fieldsFrom [] (join (fs ++ [last])) = fs ++ [last] := by
  intro fs
  induction fs with
  | nil =>
    intro last _ h h0
    rw [List.nil_append, join, fields_end last [] h, if_neg (by simpa using h0)]
    rfl
  | cons f fs ih =>
    intro last hf h h0
    have e : join (f :: fs ++ [last]) = f ++ '\t' :: join (fs ++ [last]) := by
      cases fs <;> rfl
    rw [e, fields_tab f [] _ (hf f (by simp)), ih last (fun x hx => hf x (by simp [hx])) h h0]
    rfl

theorem split_join (fs : List (List Char)) (last : List Char) (hf : ∀ f ∈ fs, '\t' ∉ f) (h : '\t' ∉ last) (h0 : last ≠ []) : Verif.Settings.split (join (fs ++ [last])) = fs ++ [last] := by
  have hne : join (fs ++ [last]) ≠ [] := by
    intro e
    have := join_split fs last hf h h0
    rw [e, fieldsFrom] at this
    simp at this
  unfold Verif.Settings.split
  rw [if_neg hne, join_split fs last hf h h0]

section
variable {w : World} {st c id : List Char} {s : Warren}

/-- **C102** (documents): when the command ends with 0 and was given no other query, the parameters are those given, the statistics are of the terms, all other parameters are what they were, and the terms
counted are those of the documents -/
theorem C102_documents (h : (tfDf w [st, c, id] s).1 = 0) : ∃ name s', w.stemmer st = some name ∧ tfDf w [st, c, id] s = (0, s') ∧ s'.params stemmerKey = name ∧ s'.params containerKey = c ∧
    s'.params idKey = id ∧ s'.params statisticsKey = ['d', 'f'] ∧ s'.counted = some (asked c []) ∧ ∀ k, k ∉ [stemmerKey, containerKey, idKey, statisticsKey] → s'.params k = s.params k := by
  obtain ⟨name, h1, e⟩ := tfDf_done h
  rw [e] at h
  obtain ⟨e2, -⟩ := terms_done (s := { s with params := baseParams name c id s.params }) h
  refine ⟨name, _, h1, e.trans e2, rfl, rfl, rfl, rfl, rfl, ?_⟩
  intro k hk
  simp only [List.mem_cons, List.not_mem_nil, or_false, not_or] at hk
  simp only [baseParams]
  rw [put_other _ _ hk.2.2.2, put_other _ _ hk.2.2.1, put_other _ _ hk.2.1, put_other _ _ hk.1]

/-- **C102** (part of a document), in part: the parameter is set.  Missing: that it is what is counted. -/
theorem C102_content_partial {q : List Char} (h : (tfDf w [st, c, id, q] s).1 = 0) : ∃ name s', w.stemmer st = some name ∧ tfDf w [st, c, id, q] s = (0, s') ∧ s'.params stemmerKey = name ∧
    s'.params containerKey = c ∧ s'.params idKey = id ∧ s'.params contentKey = q ∧ s'.params statisticsKey = ['d', 'f'] ∧ s'.counted = some (.terms c) ∧
    ∀ k, k ∉ [stemmerKey, containerKey, idKey, contentKey, statisticsKey] → s'.params k = s.params k := by
  obtain ⟨name, h1, e⟩ := tfDf_done h
  rw [e] at h
  unfold countRest at h e
  dsimp only at h e
  split at h
  · cases h
  · rename_i hq
    have e2 := setting_ok (by decide) h
    rw [e2] at h
    obtain ⟨e3, -⟩ := terms_done h
    refine ⟨name, _, h1, e.trans ((if_neg hq).trans (e2.trans e3)), rfl, rfl, rfl, rfl, rfl, rfl, ?_⟩
    intro k hk
    simp only [List.mem_cons, List.not_mem_nil, or_false, not_or] at hk
    simp only [baseParams]
    rw [put_other _ _ hk.2.2.2.2, put_other _ _ hk.2.2.2.1, put_other _ _ hk.2.2.1, put_other _ _ hk.2.1, put_other _ _ hk.1]

/-- **The query for a part of the documents is kept and not used**: whatever it is, the terms counted are those of the whole documents -/
theorem C102_content_ignored {q : List Char} (hq : q ≠ c) (h : (tfDf w [st, c, id, q] s).1 = 0) : (tfDf w [st, c, id, q] s).2.counted ≠ some (asked c [q]) := by
  obtain ⟨_, s', -, e, -, -, -, -, -, e2, -⟩ := C102_content_partial h
  rw [e]
  dsimp only
  rw [e2]
  intro x
  simp only [asked, Option.some.injEq, Counted.terms.injEq] at x
  exact hq x.symm

theorem fields_run {fs : List (List Char)} {last : List Char} (hfs : fs ≠ []) (h : (tfDf w (st :: c :: id :: (fs ++ [last])) s).1 = 0) : ∃ name s', w.stemmer st = some name ∧
    tfDf w (st :: c :: id :: (fs ++ [last])) s = (0, s') ∧
    s' = ⟨put statisticsKey ['f', 'i', 'e', 'l', 'd'] (put fieldsKey (join (fs ++ [last])) (baseParams name c id s.params)), some (.fields (if s.params contentKey = [] then c else s.params contentKey) (Verif.Settings.split (join (fs ++ [last]))))⟩ := by
  obtain ⟨name, h1, e⟩ := tfDf_done h
  rw [e] at h
  have er : ∀ s, countRest w (fs ++ [last]) s = if !(fs ++ [last]).all w.good then (1, s) else setting w 1 fieldsKey (join (fs ++ [last])) s (countFields w) := by
    intro s
    cases fs with
    | nil => exact absurd rfl hfs
    | cons f fs =>
      cases fs <;> rfl
  rw [er] at h e
  split at h
  · cases h
  · rename_i hq
    have e2 := setting_ok (by decide) h
    rw [e2] at h
    have e3 := fields_done h
    refine ⟨name, _, h1, e.trans ((if_neg hq).trans (e2.trans e3)), ?_⟩
    have g1 : put fieldsKey (join (fs ++ [last])) (baseParams name c id s.params) contentKey = s.params contentKey := by
      unfold baseParams
      rw [put_other _ _ (by decide), put_other _ _ (by decide), put_other _ _ (by decide), put_other _ _ (by decide)]
    have g2 : put fieldsKey (join (fs ++ [last])) (baseParams name c id s.params) containerKey = c := by
      unfold baseParams
      rw [put_other _ _ (by decide), put_other _ _ (by decide), put_same]
    unfold contentQuery
    simp only [g1, g2, put_same]

/-- **C102** (fields), in part: when the warren had no query for a part of the documents, two or more queries without tabs are the fields that are counted, in the order given.  Missing: queries with tabs, and a
warren that had such a query. -/
theorem C102_fields_partial {fs : List (List Char)} {last : List Char} (hfs : fs ≠ []) (hf : ∀ f ∈ fs, '\t' ∉ f) (hl : '\t' ∉ last) (h0 : last ≠ []) (hc : s.params contentKey = [])
    (h : (tfDf w (st :: c :: id :: (fs ++ [last])) s).1 = 0) : ∃ name s', w.stemmer st = some name ∧ tfDf w (st :: c :: id :: (fs ++ [last])) s = (0, s') ∧ s'.params stemmerKey = name ∧ s'.params containerKey = c ∧
    s'.params idKey = id ∧ Verif.Settings.split (s'.params fieldsKey) = fs ++ [last] ∧ s'.params statisticsKey = ['f', 'i', 'e', 'l', 'd'] ∧ s'.counted = some (asked c (fs ++ [last])) ∧
    ∀ k, k ∉ [stemmerKey, containerKey, idKey, fieldsKey, statisticsKey] → s'.params k = s.params k := by
  obtain ⟨name, s', h1, e, e2⟩ := fields_run hfs h
  refine ⟨name, s', h1, e, ?_⟩
  subst e2
  have hsp := split_join fs last hf hl h0
  refine ⟨rfl, rfl, rfl, ?_, rfl, ?_, ?_⟩
  · exact hsp
  · dsimp only
    rw [if_pos hc, hsp]
    cases fs with
    | nil => exact absurd rfl hfs
    | cons f fs => cases fs <;> rfl
  · intro k hk
    simp only [List.mem_cons, List.not_mem_nil, or_false, not_or] at hk
    simp only [baseParams]
    rw [put_other _ _ hk.2.2.2.2, put_other _ _ hk.2.2.2.1, put_other _ _ hk.2.2.1, put_other _ _ hk.2.1, put_other _ _ hk.1]

/-- **A query of an earlier command is used**: the fields are counted in the parts of documents that an earlier command was given, and no command takes that back -/
theorem C102_stale {fs : List (List Char)} {last : List Char} (hfs : fs ≠ []) (hc : s.params contentKey ≠ []) (hcc : s.params contentKey ≠ c) (h : (tfDf w (st :: c :: id :: (fs ++ [last])) s).1 = 0) :
    (tfDf w (st :: c :: id :: (fs ++ [last])) s).2.counted ≠ some (asked c (fs ++ [last])) ∧ (tfDf w (st :: c :: id :: (fs ++ [last])) s).2.params contentKey = s.params contentKey := by
  obtain ⟨name, s', -, e, e2⟩ := fields_run hfs h
  rw [e]
  subst e2
  constructor
  · dsimp only
    rw [if_neg hc]
    have : asked c (fs ++ [last]) = .fields c (fs ++ [last]) := by
      cases fs with
      | nil => exact absurd rfl hfs
      | cons f fs => cases fs <;> rfl
    rw [this]
    intro x
    injection x with x
    injection x with x _
    exact hcc x
  · dsimp only
    unfold baseParams
    rw [put_other _ _ (by decide), put_other _ _ (by decide), put_other _ _ (by decide), put_other _ _ (by decide), put_other _ _ (by decide)]

/-- **C102** (success): with a stemmer that is known, queries that are understood and a warren that keeps parameters and annotations, the command ends with 0 -/
theorem C102_succeeds {rest : List (List Char)} (h1 : w.stemmer st ≠ none) (h2 : ∀ q, w.good q = true) (h3 : ∀ k, w.sets k = true) (h4 : w.commits = true) (hc : c ≠ []) : (tfDf w (st :: c :: id :: rest) s).1 = 0 := by
  obtain ⟨name, hn⟩ := Option.ne_none_iff_exists'.1 h1
  have hset : ∀ (x : Int) (k v : List Char) (s : Warren) (next : Warren → Int × Warren), setting w x k v s next = next { s with params := put k v s.params } := by
    intro x k v s next
    unfold setting
    rw [if_pos (h3 k)]
  have hterms : ∀ s : Warren, s.params containerKey = c → (countTerms w s).1 = 0 := by
    intro s e
    unfold countTerms
    simp [e, hc, h2, h4, hset]
  have hfields : ∀ s : Warren, s.params containerKey = c → (countFields w s).1 = 0 := by
    intro s e
    have : contentQuery s ≠ [] := by
      unfold contentQuery
      split
      · rw [e]; exact hc
      · assumption
    unfold countFields
    simp [this, h2, h4, hset]
  unfold tfDf
  simp only [hn, hset, h2, Bool.not_true, Bool.false_eq_true, if_false]
  unfold countRest
  split
  · exact hterms _ rfl
  · simp only [h2, Bool.not_true, Bool.false_eq_true, if_false, hset]
    exact hterms _ rfl
  · have : ∀ fs : List (List Char), fs.all w.good = true := fun fs => List.all_eq_true.2 fun x _ => h2 x
    simp only [this, Bool.not_true, Bool.false_eq_true, if_false, hset]
    exact hfields _ rfl

/-- **C102** (refusals), in part: without three arguments, or with a stemmer that is not known, the command fails and nothing has changed.  Missing: the other failures. -/
theorem C102_refused_partial (args : List (List Char)) (h : args.length < 3 ∨ ∃ a, args.head? = some a ∧ w.stemmer a = none) : tfDf w args s = (1, s) := by
  match args, h with
  | [], _ => rfl
  | [_], _ => rfl
  | [_, _], _ => rfl
  | a :: _ :: _ :: _, h =>
    rcases h with h | ⟨a', e, h⟩
    · simp at h; omega
    · injection e with e
      subst e
      unfold tfDf
      dsimp only
      rw [h]

/-- **A command that fails has changed the warren**: with a query for documents that is not understood the stemmer is the new one, with which every later query is read, though what was counted is of the old -/
theorem C102_failed {name : List Char} (rest : List (List Char)) (h1 : w.stemmer st = some name) (h2 : w.sets stemmerKey = true) (h3 : w.good c = false) :
    ∃ s', tfDf w (st :: c :: id :: rest) s = (1, s') ∧ s'.params stemmerKey = name ∧ s'.counted = s.counted := by
  refine ⟨{ s with params := put stemmerKey name s.params }, ?_, put_same stemmerKey name s.params, rfl⟩
  unfold tfDf setting
  simp [h1, h2, h3]

/-- **C102** (nothing is hidden): a command that fails counts nothing, unless only the kind of statistics could not be set -/
theorem C102_failed_counts (args : List (List Char)) (h : (tfDf w args s).1 ≠ 0) (hs : w.sets statisticsKey = true) : (tfDf w args s).2.counted = s.counted := by
  have hset : ∀ (st : Int) (k v : List Char) (s : Warren) (next : Warren → Int × Warren), (setting w st k v s next).1 ≠ 0 → (∀ s', s'.counted = s.counted → (next s').1 ≠ 0 → (next s').2.counted = s.counted) →
      (setting w st k v s next).2.counted = s.counted := by
    intro st k v s next h g
    unfold setting at *
    split
    · rename_i hk
      rw [if_pos hk] at h
      exact g _ rfl h
    · rfl
  have hterms : ∀ s, (countTerms w s).1 ≠ 0 → (countTerms w s).2.counted = s.counted := by
    intro s h
    unfold countTerms setting at *
    dsimp only at *
    rw [if_pos hs] at *
    split
    · rfl
    · split
      · rfl
      · split
        · rfl
        · rename_i a b d
          rw [if_neg a, if_neg b, if_neg d] at h
          exact absurd rfl h
  have hfields : ∀ s, (countFields w s).1 ≠ 0 → (countFields w s).2.counted = s.counted := by
    intro s h
    unfold countFields setting at *
    dsimp only at *
    rw [if_pos hs] at *
    split
    · rfl
    · split
      · rfl
      · split
        · rfl
        · split
          · rfl
          · rename_i a b d f
            rw [if_neg a, if_neg b, if_neg d, if_neg f] at h
            exact absurd rfl h
  have hrest : ∀ rest s, (countRest w rest s).1 ≠ 0 → (countRest w rest s).2.counted = s.counted := by
    intro rest s h
    match rest, h with
    | [], h => exact hterms s h
    | [q], h =>
      unfold countRest at *
      dsimp only at *
      split
      · rfl
      · rename_i a
        rw [if_neg a] at h
        exact hset _ _ _ _ _ h fun s' e g => (hterms s' g).trans e
    | q :: r :: fs, h =>
      unfold countRest at *
      dsimp only at *
      split
      · rfl
      · rename_i a
        rw [if_neg a] at h
        exact hset _ _ _ _ _ h fun s' e g => (hfields s' g).trans e
  match args, h with
  | [], _ => rfl
  | [_], _ => rfl
  | [_, _], _ => rfl
  | st :: c :: id :: rest, h =>
    unfold tfDf at *
    dsimp only at *
    cases hst : w.stemmer st with
    | none => rfl
    | some name =>
      rw [hst] at h
      dsimp only at *
      refine hset _ _ _ _ _ h fun s1 e1 g1 => ?_
      split at g1 <;> rename_i a
      · rw [if_pos a]; exact e1
      · rw [if_neg a]
        refine (hset _ _ _ _ _ g1 fun s2 e2 g2 => ?_).trans e1
        split at g2 <;> rename_i b
        · rw [if_pos b]; exact e2
        · rw [if_neg b]
          exact (hset _ _ _ _ _ g2 fun s3 e3 g3 => (hrest rest s3 g3).trans e3).trans e2

end

/-- **C102** (set): what one command sets is what the next one prints, in the same line, and other parameters are what they were -/
theorem C102_set {w : World} {k v out : List Char} {s s' : Warren} (h : setCommand w [k, v] s = (some out, 0, s')) :
    out = k ++ [' ', '=', ' ', '"'] ++ v ++ ['"', '\n'] ∧ setCommand w [k] s' = (some out, 0, s') ∧ (∀ x, x ≠ k → s'.params x = s.params x) ∧ s'.counted = s.counted := by
  unfold setCommand at h
  dsimp only at h
  split at h
  · injection h with h1 h2
    injection h1 with h1
    injection h2 with _ h2
    subst h1 h2
    refine ⟨rfl, ?_, fun x hx => put_other _ _ hx, rfl⟩
    unfold setCommand
    dsimp only
    rw [put_same]
  · cases h

/-- a failure sets nothing -/
theorem C102_set_failed {w : World} {args : List (List Char)} {s : Warren} (h : (setCommand w args s).2.1 ≠ 0) : setCommand w args s = (none, 1, s) := by
  match args, h with
  | [], _ => rfl
  | [k], h => exact absurd rfl h
  | [k, v], h =>
    unfold setCommand at *
    dsimp only at *
    split
    · rename_i hk
      rw [if_pos hk] at h
      exact absurd rfl h
    · rfl
  | _ :: _ :: _ :: _, _ => rfl

/-- **A key that was never set looks like one that was set to nothing** -/
theorem C102_never_set (w : World) (k : List Char) (s : Warren) (h : s.params k = []) : setCommand w [k] s = (some (k ++ [' ', '=', ' ', '"', '"', '\n']), 0, s) := by
  unfold setCommand
  dsimp only
  rw [h]
  simp

/-! ### examples -/

/-- all works -/
def fineWorld : World := ⟨fun x => some x, fun _ => true, fun _ => true, true⟩

example : (tfDf fineWorld [['p'], ['D'], ['N']] ⟨fun _ => [], none⟩).1 = 0 := by decide +kernel
example : (tfDf fineWorld [['p'], ['D'], ['N'], ['T']] ⟨fun _ => [], none⟩).1 = 0 ∧ (tfDf fineWorld [['p'], ['D'], ['N'], ['T']] ⟨fun _ => [], none⟩).2.counted = some (.terms ['D']) := by decide +kernel
example : (tfDf fineWorld [['p'], ['D'], ['N'], ['T'], ['A']] ⟨fun _ => [], none⟩).1 = 0 ∧ (tfDf fineWorld [['p'], ['D'], ['N'], ['T'], ['A']] ⟨fun _ => [], none⟩).2.counted = some (.fields ['D'] [['T'], ['A']]) := by decide +kernel
example : (tfDf fineWorld [['p'], ['D'], ['N'], ['T'], ['A']] (tfDf fineWorld [['p'], ['D'], ['N'], ['X']] ⟨fun _ => [], none⟩).2).2.counted = some (.fields ['X'] [['T'], ['A']]) := by decide +kernel
example : (tfDf { fineWorld with good := fun q => q != ['('] } [['p'], ['('], ['N']] ⟨fun _ => [], none⟩).1 = 1 := by decide +kernel

end Verif.Props
