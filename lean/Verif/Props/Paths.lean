import Verif.Paths.Proof
/-
  C52: whether a file has been appended.
-/
namespace Verif.Props
open Verif.Hopper Verif.Gcl Verif.Paths

/-- what the warren says of the files that were appended: the intervals annotated `/` are `entries`, each with a path; the text of
the interval is the path, with blanks after it, and the words of the path stand one after the other from its first address -/
structure Recorded (ix : Index) (split : List Char → List (List Char)) (translate : Int → Int → List Char)
    (entries : List (Ann × List Char)) : Prop where
  all : ∀ a, ix.solutions ['/'] a ↔ ∃ path, (a, path) ∈ entries
  text : ∀ a path, (a, path) ∈ entries → ∃ w, translate a.p a.q = path ++ w ∧ ∀ c ∈ w, isSpace c = true
  words : ∀ a path, (a, path) ∈ entries → consecutive ((split path).map ix.solutions) a.p ∧ a.p + (split path).length - 1 ≤ a.q
  plain : ∀ a path, (a, path) ∈ entries → path ≠ [] ∧ ∀ c ∈ path, isSpace c = false

/-- a path that can be asked for -/
structure Askable (ix : Index) (split : List Char → List (List Char)) (path : List Char) : Prop where
  no_nul : '\x00' ∉ path
  end_ok : path.getLast? ≠ some '\\'
  no_blank : ∀ c ∈ path, isSpace c = false
  slashes : split (escape path) = split path
  some_word : split path ≠ []
  few : (split path).length ≤ 4294967295
  good : ∀ t ∈ split path, GoodTerm t
  points : ∀ t ∈ split path, ∀ a, ix.solutions t a → a.p = a.q

theorem slash_false {path : List Char} (h : path.getLast? ≠ some '\\') : slash false path = false := by
  unfold slash
  cases hp : path.getLast? with
  | none => rfl
  | some c =>
    simp only [beq_eq_false_iff_ne]
    intro e; subst e; exact h hp

/-- **C52.** `already_appended` answers, and says yes exactly if the file's path is one of those recorded.  Partial: for paths
without blanks, that have a word, and do not end in a backslash; without these the answer can be wrong, or fail (`C52_prefix`,
`C52_leading_blank`, `C52_no_words`, `C52_backslash`). -/
theorem C52_decides_partial (ix : Index) {split : List Char → List (List Char)} (count : List Char → Int)
    {translate : Int → Int → List Char} {entries : List (Ann × List Char)} (hr : Recorded ix split translate entries)
    {filename : List Char} (ha : Askable ix split (normalized filename)) :
    ∃ b, alreadyAppended ix split count translate filename = some b ∧
      (b = true ↔ ∃ a, (a, normalized filename) ∈ entries) := by
  have hs := ha.slashes
  obtain ⟨b, h1, h2⟩ := already_iff ix (split := split) count translate ha.no_nul (slash_false ha.end_ok) (by rw [hs]; exact ha.few)
    (by rw [hs]; exact ha.good)
  refine ⟨b, h1, ?_⟩
  rw [h2]
  have hw : Worded split (normalized filename) :=
    ⟨by rw [hs]; exact ha.some_word, by rw [hs]; exact ha.few, by rw [hs]; exact ha.good⟩
  have hne := normalized_ne filename
  constructor
  · rintro ⟨a, k1, -, k3⟩
    obtain ⟨path, hp⟩ := (hr.all a).1 k1
    obtain ⟨bl, r, e1, e2, e3, e4⟩ := (pathMatch_iff hne).1 k3
    obtain ⟨w, t1, t2⟩ := hr.text a path hp
    obtain ⟨p1, p2⟩ := hr.plain a path hp
    have hb : bl = [] := by
      cases bl with
      | nil => rfl
      | cons c cs =>
        rw [t1] at e1
        cases path with
        | nil => exact absurd rfl p1
        | cons d ds =>
          rw [List.cons_append, List.cons_append, List.cons_append] at e1
          have hdc : d = c := (List.cons.inj e1).1
          have := p2 d (by simp)
          rw [hdc, e2 c (by simp)] at this; cases this
    subst hb
    rw [List.nil_append, t1] at e1
    have := same_word e1 p2 ha.no_blank (fun c cs h => t2 c (by rw [h]; simp)) e4
    subst this
    exact ⟨a, hp⟩
  · rintro ⟨a, hp⟩
    have k1 := (hr.all a).2 ⟨_, hp⟩
    obtain ⟨w, t1, t2⟩ := hr.text a _ hp
    obtain ⟨c1, c2⟩ := hr.words a _ hp
    refine ⟨a, k1, (den_path ix hne hw (by rw [hs]; exact ha.points) ((ix.wf _).lo k1) ((ix.wf _).hi k1)).2
      ⟨a.p, Int.le_refl _, by rw [hs]; exact c2, by rw [hs]; exact c1⟩, (pathMatch_iff hne).2 ⟨[], w, t1, by simp, ?_, ?_⟩⟩
    · intro c cs h; exact ha.no_blank c (by rw [h]; simp)
    · intro c cs h; exact t2 c (by rw [h]; simp)

/-- **C52.** Whatever is in the warren: if `already_appended` says yes then some interval annotated `/` has a text that is, after blanks,
the path, and then nothing or a blank. -/
theorem C52_true_means (ix : Index) {split : List Char → List (List Char)} (count : List Char → Int) (translate : Int → Int → List Char)
    {filename : List Char} (h0 : '\x00' ∉ normalized filename) (h1 : (normalized filename).getLast? ≠ some '\\')
    (hf : (split (escape (normalized filename))).length ≤ 4294967295)
    (hg : ∀ t ∈ split (escape (normalized filename)), GoodTerm t)
    (h : alreadyAppended ix split count translate filename = some true) :
    ∃ a b r, ix.solutions ['/'] a ∧ translate a.p a.q = b ++ normalized filename ++ r ∧ (∀ c ∈ b, isSpace c = true) ∧
      ∀ c cs, r = c :: cs → isSpace c = true := by
  obtain ⟨b, k1, k2⟩ := already_iff ix (split := split) count translate h0 (slash_false h1) hf hg
  rw [h] at k1
  obtain ⟨a, k3, -, k4⟩ := k2.1 (Option.some.inj k1).symm
  obtain ⟨bl, r, e1, e2, -, e4⟩ := (pathMatch_iff (normalized_ne filename)).1 k4
  exact ⟨a, bl, r, k3, e1, e2, e4⟩

/-! ### where it goes wrong -/

/-- **C52, a longer path.** If what was appended is a path that goes on after a blank, such as `./a b`, then `already_appended` says yes
for the part before the blank, `./a`, although no such file was ever appended. -/
theorem C52_prefix (ix : Index) {split : List Char → List (List Char)} (count : List Char → Int)
    {translate : Int → Int → List Char} {filename more : List Char} (ha : Askable ix split (normalized filename))
    {a : Ann} (hs : ix.solutions ['/'] a) (ht : translate a.p a.q = normalized filename ++ ' ' :: more)
    (hw : consecutive ((split (normalized filename)).map ix.solutions) a.p) (hq : a.p + (split (normalized filename)).length - 1 ≤ a.q) :
    alreadyAppended ix split count translate filename = some true := by
  have he := ha.slashes
  obtain ⟨b, h1, h2⟩ := already_iff ix (split := split) count translate ha.no_nul (slash_false ha.end_ok) (by rw [he]; exact ha.few)
    (by rw [he]; exact ha.good)
  rw [h1]
  congr 1
  have hne := normalized_ne filename
  refine h2.2 ⟨a, hs, (den_path ix hne ⟨by rw [he]; exact ha.some_word, by rw [he]; exact ha.few, by rw [he]; exact ha.good⟩
    (by rw [he]; exact ha.points) ((ix.wf _).lo hs) ((ix.wf _).hi hs)).2 ⟨a.p, Int.le_refl _, by rw [he]; exact hq, by rw [he]; exact hw⟩,
    (pathMatch_iff hne).2 ⟨[], ' ' :: more, ht, by simp, ?_, ?_⟩⟩
  · intro c cs h; exact ha.no_blank c (by rw [h]; simp)
  · intro c cs h; rw [← (List.cons.inj h).1]; rfl

/-- **C52, a blank first.** Of a path that starts with a blank, such as ` a/b`, it never says that it was appended. -/
theorem C52_leading_blank (ix : Index) {split : List Char → List (List Char)} (count : List Char → Int)
    (translate : Int → Int → List Char) {filename : List Char} {c : Char} {cs : List Char} (hc : normalized filename = c :: cs)
    (hb : isSpace c = true) (h0 : '\x00' ∉ normalized filename) (h1 : (normalized filename).getLast? ≠ some '\\')
    (hf : (split (escape (normalized filename))).length ≤ 4294967295) (hg : ∀ t ∈ split (escape (normalized filename)), GoodTerm t) :
    alreadyAppended ix split count translate filename = some false := by
  obtain ⟨b, k1, k2⟩ := already_iff ix (split := split) count translate h0 (slash_false h1) hf hg
  rw [k1]
  cases b with
  | false => rfl
  | true =>
    obtain ⟨a, -, -, k4⟩ := k2.1 rfl
    obtain ⟨_, _, -, -, e3, -⟩ := (pathMatch_iff (normalized_ne filename)).1 k4
    have := e3 c cs hc
    rw [hb] at this; cases this

/-- **C52, no words.** Nor of a path in which the tokenizer finds no word, such as `./++`, as long as the quoted path itself is not a feature. -/
theorem C52_no_words (ix : Index) {split : List Char → List (List Char)} (count : List Char → Int)
    (translate : Int → Int → List Char) {filename : List Char} (hs : split (escape (normalized filename)) = [])
    (hn : ∀ a, ¬ ix.solutions (gclString (normalized filename)) a)
    (h0 : '\x00' ∉ normalized filename) (h1 : (normalized filename).getLast? ≠ some '\\') :
    alreadyAppended ix split count translate filename = some false := by
  obtain ⟨b, k1, k2⟩ := already_iff ix (split := split) count translate h0 (slash_false h1) (by rw [hs]; decide) (by rw [hs]; simp)
  rw [k1]
  cases b with
  | false => rfl
  | true =>
    obtain ⟨a, -, ⟨c, k3, -⟩, -⟩ := k2.1 rfl
    have he : expandPhrases split '"' (.node .term (gclString (normalized filename)) 0 []) =
        .node .term (gclString (normalized filename)) 0 [] := by
      rw [expandPhrases]
      have hd : ((gclString (normalized filename)).drop 1).take ((gclString (normalized filename)).length - 2) =
        escape (normalized filename) := by simp [gclString]
      split
      · rw [hd, hs]; rfl
      · rfl
    rw [he, den_term] at k3
    exact absurd k3 (hn c)

/-- **C52, a backslash last.** Of a path that ends in a backslash it cannot say anything: the query for it has no end, so it fails. -/
theorem C52_backslash (ix : Index) (split : List Char → List (List Char)) (count : List Char → Int)
    (translate : Int → Int → List Char) {filename : List Char} (h0 : '\x00' ∉ normalized filename)
    (h1 : (normalized filename).getLast? = some '\\') :
    alreadyAppended ix split count translate filename = none := by
  unfold alreadyAppended gclHopper
  simp only []
  rw [query_fails h0 (by unfold slash; rw [h1]; rfl)]

/-! ### a case -/

/-- words are single letters -/
def letters (s : List Char) : List (List Char) := (s.filter fun c => decide (c = 'b' ∨ c = 'c')).map fun c => [c]

/-- one shard with the path `/b` at two places -/
def pathIndex : Index where
  shards := [sampleShard [2, 7] [2, 7]]
  featurize := fun t => if t = ['/'] then 97 else if t = ['b'] then 98 else 1
  good := by
    intro ix hix
    simp only [List.mem_cons, List.not_mem_nil, or_false] at hix
    subst hix
    exact sampleShard_good (by simp) (by simp) (by simp) (by simp) (by decide) (by decide)

theorem pathIndex_solutions (f : List Char) (hf : f = ['/'] ∨ f = ['b']) (a : Ann) :
    pathIndex.solutions f a ↔ a = ⟨2, 2, 0⟩ ∨ a = ⟨7, 7, 0⟩ := by
  have h97 : pathIndex.featurize f = 97 ∨ pathIndex.featurize f = 98 := by
    rcases hf with rfl | rfl
    · exact .inl rfl
    · exact .inr rfl
  have hg := pathIndex.good (sampleShard [2, 7] [2, 7]) (by simp [pathIndex])
  have hanns : Store.annsOf (sampleShard [2, 7] [2, 7]) (pathIndex.featurize f) = [⟨2, 2, 0⟩, ⟨7, 7, 0⟩] := by
    rcases h97 with h | h <;> rw [h] <;> rfl
  have hnone : ∀ b, ¬ Store.solutionsRaw pathIndex.shards Store.nullFeature b := by
    intro b hb
    obtain ⟨L, hL, haL⟩ := Store.unionL_mem hb
    simp only [pathIndex, List.map_cons, List.map_nil, List.mem_cons, List.not_mem_nil, or_false] at hL
    subst hL
    have : Store.annsOf (sampleShard [2, 7] [2, 7]) Store.nullFeature = [] := rfl
    rw [this] at haL; simp at haL
  unfold Index.solutions Store.solutions
  rw [if_neg (by unfold Store.nullFeature; rcases h97 with h | h <;> rw [h] <;> decide)]
  unfold notContainedIn
  have hraw : Store.solutionsRaw pathIndex.shards (pathIndex.featurize f) a ↔ a = ⟨2, 2, 0⟩ ∨ a = ⟨7, 7, 0⟩ := by
    unfold Store.solutionsRaw
    simp only [show pathIndex.shards = [sampleShard [2, 7] [2, 7]] from rfl, List.map_cons, List.map_nil]
    rw [Store.unionL_single (hg.annsOf_listing _), hanns]
    simp
  rw [hraw]
  constructor
  · exact fun h => h.1
  · exact fun h => ⟨h, fun ⟨b, hb, _⟩ => hnone b hb⟩

/-- the path `/b` is recorded there twice -/
theorem pathIndex_recorded : Recorded pathIndex letters (fun _ _ => ['/', 'b', '\n'])
    [(⟨2, 2, 0⟩, ['/', 'b']), (⟨7, 7, 0⟩, ['/', 'b'])] where
  all := by
    intro a
    rw [pathIndex_solutions _ (.inl rfl)]
    simp only [List.mem_cons, List.not_mem_nil, or_false, Prod.mk.injEq]
    constructor
    · rintro (h | h)
      · exact ⟨_, .inl ⟨h, rfl⟩⟩
      · exact ⟨_, .inr ⟨h, rfl⟩⟩
    · rintro ⟨_, ⟨h, _⟩ | ⟨h, _⟩⟩
      · exact .inl h
      · exact .inr h
  text := by
    intro a path h
    simp only [List.mem_cons, List.not_mem_nil, or_false, Prod.mk.injEq] at h
    rcases h with ⟨rfl, rfl⟩ | ⟨rfl, rfl⟩ <;> exact ⟨['\n'], rfl, by decide⟩
  words := by
    intro a path h
    have hb := pathIndex_solutions ['b'] (.inr rfl)
    simp only [List.mem_cons, List.not_mem_nil, or_false, Prod.mk.injEq] at h
    rcases h with ⟨rfl, rfl⟩ | ⟨rfl, rfl⟩
    · exact ⟨⟨⟨⟨2, 2, 0⟩, (hb _).2 (.inl rfl), rfl⟩, trivial⟩, by decide⟩
    · exact ⟨⟨⟨⟨7, 7, 0⟩, (hb _).2 (.inr rfl), rfl⟩, trivial⟩, by decide⟩
  plain := by
    intro a path h
    simp only [List.mem_cons, List.not_mem_nil, or_false, Prod.mk.injEq] at h
    rcases h with ⟨rfl, rfl⟩ | ⟨rfl, rfl⟩ <;> exact ⟨by simp, by decide⟩

theorem pathIndex_points (t : List Char) (a : Ann) (h : pathIndex.solutions t a) : a.p = a.q := by
  have h : Store.solutionsRaw pathIndex.shards (pathIndex.featurize t) a := by
    unfold Index.solutions Store.solutions at h
    split at h
    · exact h
    · exact h.1
  obtain ⟨L, hL, haL⟩ := Store.unionL_mem h
  simp only [show pathIndex.shards = [sampleShard [2, 7] [2, 7]] from rfl, List.map_cons, List.map_nil, List.mem_cons,
    List.not_mem_nil, or_false] at hL
  subst hL
  have hf : pathIndex.featurize t = 97 ∨ pathIndex.featurize t = 98 ∨ pathIndex.featurize t = 1 := by
    show (if t = ['/'] then (97 : Int) else if t = ['b'] then 98 else 1) = 97 ∨ _ ∨ _
    by_cases h1 : t = ['/']
    · simp [h1]
    · by_cases h2 : t = ['b']
      · exact .inr (.inl (by show (if t = ['/'] then (97 : Int) else if t = ['b'] then 98 else 1) = 98; rw [if_neg h1, if_pos h2]))
      · exact .inr (.inr (by show (if t = ['/'] then (97 : Int) else if t = ['b'] then 98 else 1) = 1; rw [if_neg h1, if_neg h2]))
  rcases hf with h | h | h <;> rw [h] at haL
  · have e : Store.annsOf (sampleShard [2, 7] [2, 7]) 97 = [⟨2, 2, 0⟩, ⟨7, 7, 0⟩] := rfl
    rw [e] at haL; simp at haL; rcases haL with rfl | rfl <;> rfl
  · have e : Store.annsOf (sampleShard [2, 7] [2, 7]) 98 = [⟨2, 2, 0⟩, ⟨7, 7, 0⟩] := rfl
    rw [e] at haL; simp at haL; rcases haL with rfl | rfl <;> rfl
  · have e : Store.annsOf (sampleShard [2, 7] [2, 7]) 1 = [] := rfl
    rw [e] at haL; simp at haL

theorem letters_askable (path : List Char) (h : path = ['/', 'b'] ∨ path = ['/', 'c', 'b', '"', 'b']) :
    Askable pathIndex letters path := by
  rcases h with rfl | rfl
  · refine ⟨by decide, by decide, by decide, by decide, by decide, by decide, ?_, fun t _ a => pathIndex_points t a⟩
    intro t ht
    simp [letters] at ht
    subst ht
    exact .inl ⟨'b', [], rfl, rfl, by decide⟩
  · refine ⟨by decide, by decide, by decide, by decide, by decide, by decide, ?_, fun t _ a => pathIndex_points t a⟩
    intro t ht
    simp [letters] at ht
    rcases ht with rfl | rfl
    · exact .inl ⟨'c', [], rfl, rfl, by decide⟩
    · exact .inl ⟨'b', [], rfl, rfl, by decide⟩

/-- yes for `/b`, no for `/cb"b` -/
example (count : List Char → Int) :
    alreadyAppended pathIndex letters count (fun _ _ => ['/', 'b', '\n']) ['/', 'b'] = some true ∧
    alreadyAppended pathIndex letters count (fun _ _ => ['/', 'b', '\n']) ['/', 'c', 'b', '"', 'b'] = some false := by
  constructor
  · obtain ⟨b, h1, h2⟩ := C52_decides_partial pathIndex count pathIndex_recorded (filename := ['/', 'b'])
      (letters_askable _ (.inl (by decide)))
    rw [h1]; congr 1; exact h2.2 ⟨⟨2, 2, 0⟩, .head _⟩
  · obtain ⟨b, h1, h2⟩ := C52_decides_partial pathIndex count pathIndex_recorded (filename := ['/', 'c', 'b', '"', 'b'])
      (letters_askable _ (.inr (by decide)))
    rw [h1]
    cases b with
    | false => rfl
    | true =>
      obtain ⟨a, ha⟩ := h2.1 rfl
      have hn : normalized ['/', 'c', 'b', '"', 'b'] = ['/', 'c', 'b', '"', 'b'] := by decide
      rw [hn] at ha
      simp at ha

/-- the wrong yes: the text of the entry is `/b c` -/
example (count : List Char → Int) :
    alreadyAppended pathIndex letters count (fun _ _ => ['/', 'b', ' ', 'c']) ['/', 'b'] = some true :=
  C52_prefix pathIndex count (more := ['c']) (letters_askable _ (.inl (by decide))) (a := ⟨2, 2, 0⟩)
    ((pathIndex_solutions _ (.inl rfl) _).2 (.inl rfl)) (by decide)
    ⟨⟨⟨2, 2, 0⟩, (pathIndex_solutions _ (.inr rfl) _).2 (.inl rfl), rfl⟩, trivial⟩ (by decide)

/-- the others -/
example : normalized [' ', 'a', '/', 'b'] = ' ' :: ['a', '/', 'b'] ∧ isSpace ' ' = true ∧
    letters (escape (normalized ['+', '+'])) = [] ∧ (normalized ['a', '\\']).getLast? = some '\\' ∧ '\x00' ∉ normalized ['a', '\\'] := by
  decide

end Verif.Props
