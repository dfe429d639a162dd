import Verif.BuildTool.Model
/-
  C99: the command that builds an index builds it from the files that are named, and the command that annotates a meadow takes its arguments as they are written.
-/
namespace Verif.Props
open Verif.BuildTool

/-! ### files -/

theorem prefix_split : ∀ (a b : List Char), a.isPrefixOf b = true ↔ ∃ c, b = a ++ c := by
  intro a b
  rw [List.isPrefixOf_iff_prefix]
  constructor
  · rintro ⟨c, h⟩; exact ⟨c, h.symm⟩
  · rintro ⟨c, h⟩; exact ⟨c, h.symm⟩

theorem mentions_iff : ∀ (p : List Char), mentions p = true ↔ MentionsReadme p := by
  intro p
  induction p with
  | nil =>
    unfold mentions MentionsReadme
    constructor
    · intro h; cases h
    · rintro ⟨a, b, c, h, hb⟩
      have : b = [] := by
        have := h.symm
        simp only [List.append_eq_nil_iff] at this
        exact this.1.2
      rw [this] at hb
      cases hb
  | cons x t ih =>
    rw [mentions, Bool.or_eq_true, ih, prefix_split]
    constructor
    · rintro (⟨c, h⟩ | ⟨a, b, c, h, hb⟩)
      · refine ⟨[], (x :: t).take 6, (x :: t).drop 6, by rw [List.nil_append, List.take_append_drop], ?_⟩
        have h' := congrArg (List.take 6) h
        rw [← List.map_take] at h'
        exact h'.trans (by rfl)
      · exact ⟨x :: a, b, c, by rw [h]; rfl, hb⟩
    · rintro ⟨a, b, c, h, hb⟩
      cases a with
      | nil =>
        left
        refine ⟨c.map lower, ?_⟩
        rw [h, List.nil_append, List.map_append]
        exact congrArg (· ++ c.map lower) hb
      | cons y a =>
        right
        rw [List.cons_append, List.cons_append, List.cons.injEq] at h
        exact ⟨a, b, c, h.2, hb⟩

mutual
theorem walkNode_mem (p : List Char) : ∀ (n : Node) (text : List (List Char)), walkNode p n = some text → ∀ q, q ∈ text ↔ FileBelow p n q ∧ ¬MentionsReadme q
  | .file, text, h, q => by
    rw [walkNode, Option.some.injEq] at h
    rw [← h]
    by_cases hm : mentions p = true
    · rw [if_pos hm]
      constructor
      · intro h; cases h
      · rintro ⟨hf, hn⟩
        cases hf
        exact absurd ((mentions_iff p).1 hm) hn
    · rw [if_neg hm, List.mem_singleton]
      constructor
      · rintro rfl
        exact ⟨.here _, fun h => hm ((mentions_iff _).2 h)⟩
      · rintro ⟨hf, -⟩
        cases hf
        rfl
  | .dir es, text, h, q => by
    rw [walkNode] at h
    rw [walkEntries_mem p es text h q]
    constructor
    · rintro ⟨name, n, h1, h2, h3⟩; exact ⟨.inside p es name n q h1 h2, h3⟩
    · rintro ⟨hf, h3⟩
      cases hf with
      | inside _ _ name n _ h1 h2 => exact ⟨name, n, h1, h2, h3⟩
  | .locked, text, h, q => by rw [walkNode] at h; cases h
  | .other, text, h, q => by
    rw [walkNode, Option.some.injEq] at h
    rw [← h]
    constructor
    · intro h; cases h
    · rintro ⟨hf, -⟩; cases hf
theorem walkEntries_mem (p : List Char) : ∀ (es : Entries) (text : List (List Char)), walkEntries p es = some text → ∀ q, q ∈ text ↔ ∃ name n, es.Has name n ∧ FileBelow (join p name) n q ∧ ¬MentionsReadme q
  | .nil, text, h, q => by
    rw [walkEntries, Option.some.injEq] at h
    rw [← h]
    constructor
    · intro h; cases h
    · rintro ⟨_, _, h, -⟩; cases h
  | .cons name n rest, text, h, q => by
    rw [walkEntries] at h
    cases ha : walkNode (join p name) n with
    | none => rw [ha] at h; cases h
    | some a =>
      cases hb : walkEntries p rest with
      | none => rw [ha, hb] at h; cases h
      | some b =>
        rw [ha, hb] at h
        simp only [Option.some.injEq] at h
        rw [← h, List.mem_append, walkNode_mem _ n a ha q, walkEntries_mem p rest b hb q]
        constructor
        · rintro (⟨h1, h2⟩ | ⟨m, k, h1, h2⟩)
          · exact ⟨name, n, .here _ _ _, h1, h2⟩
          · exact ⟨m, k, .there _ _ _ _ _ h1, h2⟩
        · rintro ⟨m, k, h1, h2⟩
          cases h1 with
          | here => exact .inl h2
          | there _ _ _ _ _ h1 => exact .inr ⟨m, k, h1, h2⟩
end

mutual
theorem walkNode_none (p : List Char) : ∀ (n : Node), walkNode p n = none ↔ LockedBelow n
  | .file => by rw [walkNode]; constructor <;> intro h <;> cases h
  | .dir es => by
    rw [walkNode, walkEntries_none p es]
    constructor
    · rintro ⟨name, n, h1, h2⟩; exact .inside _ _ _ h1 h2
    · intro h
      cases h with
      | inside _ name n h1 h2 => exact ⟨name, n, h1, h2⟩
  | .locked => by rw [walkNode]; exact ⟨fun _ => .here, fun _ => rfl⟩
  | .other => by rw [walkNode]; constructor <;> intro h <;> cases h
theorem walkEntries_none (p : List Char) : ∀ (es : Entries), walkEntries p es = none ↔ ∃ name n, es.Has name n ∧ LockedBelow n
  | .nil => by
    rw [walkEntries]
    constructor
    · intro h; cases h
    · rintro ⟨_, _, h, -⟩; cases h
  | .cons name n rest => by
    rw [walkEntries]
    have i1 := walkNode_none (join p name) n
    have i2 := walkEntries_none p rest
    cases ha : walkNode (join p name) n with
    | none =>
      simp only
      exact ⟨fun _ => ⟨name, n, .here _ _ _, i1.1 ha⟩, fun _ => trivial⟩
    | some a =>
      have h1 : ¬LockedBelow n := fun h => by rw [i1.2 h] at ha; cases ha
      cases hb : walkEntries p rest with
      | none =>
        obtain ⟨m, k, h2, h3⟩ := i2.1 hb
        simp only
        exact ⟨fun _ => ⟨m, k, .there _ _ _ _ _ h2, h3⟩, fun _ => trivial⟩
      | some b =>
        simp only
        constructor
        · intro h; cases h
        · rintro ⟨m, k, h2, h3⟩
          cases h2 with
          | here => exact absurd h3 h1
          | there _ _ _ _ _ h2 =>
            rw [i2.2 ⟨m, k, h2, h3⟩] at hb
            cases hb
end

/-- **C99** (files), in part: what is built from is exactly the files at and below a name whose paths do not have the word `readme` in them.  Missing: those that have it in the name of a
directory. -/
theorem C99_walk_partial (fs : List Char → Node) (p : List Char) (text : List (List Char)) (h : walk fs p = some text) (q : List Char) : q ∈ text ↔ FileBelow p (fs p) q ∧ ¬MentionsReadme q := by
  unfold walk at h
  split at h
  · cases h
  · exact walkNode_mem p (fs p) text h q

/-- **C99** (files that are not there): a name is refused exactly when there is no file or directory, or a directory that cannot be read is at or below it -/
theorem C99_refused (fs : List Char → Node) (p : List Char) : walk fs p = none ↔ fs p = .other ∨ LockedBelow (fs p) := by
  unfold walk
  split
  · rename_i e
    exact ⟨fun _ => .inl e, fun _ => rfl⟩
  · rename_i hn
    rw [walkNode_none]
    exact ⟨.inr, fun h => h.elim (fun e => absurd e hn) id⟩

theorem below_prefix {p : List Char} {n : Node} {q : List Char} (h : FileBelow p n q) : ∃ t, q = p ++ t := by
  induction h with
  | here => exact ⟨[], by simp⟩
  | inside p es name n q _ _ ih =>
    obtain ⟨t, rfl⟩ := ih
    unfold join
    split
    · exact ⟨name ++ t, by simp⟩
    · exact ⟨'/' :: name ++ t, by simp⟩

/-- **Nothing is built from a directory with the word in its name, or in the name of one that it is in**, and that is not reported -/
theorem C99_readme (fs : List Char → Node) (p : List Char) (hm : MentionsReadme p) (text : List (List Char)) (h : walk fs p = some text) : text = [] := by
  apply List.eq_nil_iff_forall_not_mem.2
  intro q hq
  obtain ⟨h1, h2⟩ := (C99_walk_partial fs p text h q).1 hq
  obtain ⟨t, rfl⟩ := below_prefix h1
  obtain ⟨a, b, c, rfl, hb⟩ := hm
  exact h2 ⟨a, b, c ++ t, by simp, hb⟩

theorem walkAll_mem (fs : List Char → Node) : ∀ (ps : List (List Char)) (text : List (List Char)), walkAll fs ps = some text → ∀ q, q ∈ text ↔ ∃ p ∈ ps, FileBelow p (fs p) q ∧ ¬MentionsReadme q := by
  intro ps
  induction ps with
  | nil =>
    intro text h q
    rw [walkAll, Option.some.injEq] at h
    rw [← h]
    simp
  | cons p ps ih =>
    intro text h q
    rw [walkAll] at h
    cases ha : walk fs p with
    | none => rw [ha] at h; cases h
    | some a =>
      cases hb : walkAll fs ps with
      | none => rw [ha, hb] at h; cases h
      | some b =>
        rw [ha, hb] at h
        simp only [Option.some.injEq] at h
        rw [← h, List.mem_append, C99_walk_partial fs p a ha q, ih b hb q]
        simp only [List.mem_cons, exists_eq_or_imp]

/-! ### arguments of the build -/

theorem takeOptions_split : ∀ (opts rest : List (List Char)), (∀ o ∈ opts, o.head? ≠ some '-') → (∀ a ∈ rest.head?, a.head? = some '-') → takeOptions (opts ++ rest) = (opts.flatMap fun o => ' ' :: o, rest) := by
  intro opts
  induction opts with
  | nil =>
    intro rest _ h
    cases rest with
    | nil => rfl
    | cons a as => rw [List.nil_append, takeOptions, if_pos (h a rfl)]; rfl
  | cons o opts ih =>
    intro rest ho h
    rw [List.cons_append, takeOptions, if_neg (ho o (by simp)), ih rest (fun x hx => ho x (by simp [hx])) h, List.flatMap_cons]
    rfl

theorem takeOptions_shape : ∀ (args : List (List Char)), ∃ opts rest, args = opts ++ rest ∧ (∀ o ∈ opts, o.head? ≠ some '-') ∧ ∀ a ∈ rest.head?, a.head? = some '-' := by
  intro args
  induction args with
  | nil => exact ⟨[], [], rfl, by simp, by simp⟩
  | cons a as ih =>
    by_cases ha : a.head? = some '-'
    · exact ⟨[], a :: as, rfl, by simp, by simpa using ha⟩
    · obtain ⟨opts, rest, h1, h2, h3⟩ := ih
      refine ⟨a :: opts, rest, by rw [h1]; rfl, ?_, h3⟩
      intro o ho
      rcases List.mem_cons.1 ho with rfl | ho
      · exact ha
      · exact h2 o ho

/-- how a kind of collection is written -/
def kindFlag : Kind → List Char
  | .trec => ['-', '-', 't', 'r', 'e', 'c']
  | .json => ['-', '-', 'j', 's', 'o', 'n']
  | .marco => ['-', '-', 'm', 'a', 'r', 'c', 'o']
  | .marco2 => ['-', '-', 'm', 'a', 'r', 'c', 'o', '2']

theorem kindOf_iff (a : List Char) (k : Kind) : kindOf a = some k ↔ a = kindFlag k := by
  constructor
  · intro h
    unfold kindOf at h
    split at h
    · cases h; assumption
    · split at h
      · cases h; assumption
      · split at h
        · cases h; assumption
        · split at h
          · cases h; assumption
          · cases h
  · rintro rfl
    cases k <;> decide

/-- **C99** (arguments of the build): they are taken exactly when they are options without a dash at the front, the kind of the collection or nothing (a TREC collection), `--files`, and one name or
more, whatever the names are -/
theorem C99_arguments (args : List (List Char)) (options : List Char) (k : Kind) (files : List (List Char)) :
    parseBuild args = some (options, k, files) ↔
      ∃ opts kind, args = opts ++ kind ++ ['-', '-', 'f', 'i', 'l', 'e', 's'] :: files ∧ files ≠ [] ∧ (∀ o ∈ opts, o.head? ≠ some '-') ∧ options = (opts.flatMap fun o => ' ' :: o) ∧ (kind = [kindFlag k] ∨ kind = [] ∧ k = .trec) := by
  constructor
  · intro h
    obtain ⟨opts, rest, rfl, h2, h3⟩ := takeOptions_shape args
    unfold parseBuild at h
    rw [takeOptions_split opts rest h2 h3] at h
    simp only at h
    by_cases hl : rest.length < 2
    · rw [if_pos hl] at h; cases h
    · rw [if_neg hl] at h
      cases rest with
      | nil => simp at hl
      | cons a as =>
        simp only at h
        have has : as ≠ [] := by
          rintro rfl
          simp at hl
        by_cases hf : a = filesFlag
        · rw [if_pos hf] at h
          cases h
          exact ⟨opts, [], by rw [hf]; simp [filesFlag], has, h2, rfl, .inr ⟨rfl, rfl⟩⟩
        · rw [if_neg hf] at h
          cases hk : kindOf a with
          | none => rw [hk] at h; cases h
          | some k' =>
            rw [hk] at h
            cases as with
            | nil => exact absurd rfl has
            | cons b bs =>
              simp only at h
              by_cases hb : b ≠ filesFlag ∨ bs = []
              · rw [if_pos hb] at h; cases h
              · rw [if_neg hb] at h
                cases h
                rw [not_or, Decidable.not_not] at hb
                refine ⟨opts, [kindFlag k], ?_, hb.2, h2, rfl, .inl rfl⟩
                rw [← (kindOf_iff a k).1 hk, hb.1]
                simp [filesFlag]
  · rintro ⟨opts, kind, rfl, h1, h2, rfl, (rfl | ⟨rfl, rfl⟩)⟩
    · unfold parseBuild
      rw [List.append_assoc, takeOptions_split opts _ h2 (by cases k <;> simp [kindFlag])]
      simp only [List.cons_append, List.nil_append]
      have hk := (kindOf_iff (kindFlag k) k).2 rfl
      rw [if_neg (by simp), if_neg (by cases k <;> decide), hk]
      simp only
      rw [if_neg (by simp [filesFlag, h1])]
    · unfold parseBuild
      rw [List.append_nil, takeOptions_split opts _ h2 (by simp)]
      simp only
      rw [if_neg (by cases files <;> simp_all), if_pos (show ['-', '-', 'f', 'i', 'l', 'e', 's'] = filesFlag from rfl)]

/-! ### building -/

/-- **C99** (builds), in part: when there is an index in the end, it has exactly the files at and below the names whose paths do not have the word `readme` in them, and the program ends with 0.
Missing: the files that have it in the name of a directory, and that one named twice is there twice. -/
theorem C99_index_partial (w : World) (args text : List (List Char)) (h : (main w args).index = some text) :
    (main w args).ok = true ∧ ∃ options k files, parseBuild args = some (options, k, files) ∧ ∀ q, q ∈ text ↔ ∃ p ∈ files, FileBelow p (w.fs p) q ∧ ¬MentionsReadme q := by
  have key : ∀ (options : List Char) (k : Kind) (t : List (List Char)), (build w options k t).index = some text → (build w options k t).ok = true ∧ t = text := by
    have all : ∀ (options : List Char) (t : List (List Char)), (buildAll w options t).index = some text → (buildAll w options t).ok = true ∧ t = text := by
      intro options t h
      unfold buildAll at h ⊢
      split at h
      · rename_i hc
        rw [if_pos hc]
        simp only [Option.some.injEq] at h
        exact ⟨rfl, h⟩
      · cases h
    intro options k t h
    unfold build at h ⊢
    cases k with
    | json => cases h
    | trec => exact all _ _ h
    | marco =>
      simp only at h ⊢
      by_cases h0 : t.length = 0
      · rw [if_pos h0] at h; cases h
      · rw [if_neg h0] at h ⊢
        by_cases h1 : t.length > 1
        · rw [if_pos h1] at h; cases h
        · rw [if_neg h1] at h ⊢
          exact all _ _ h
    | marco2 =>
      simp only at h ⊢
      by_cases h0 : t.length = 0
      · rw [if_pos h0] at h; cases h
      · rw [if_neg h0] at h ⊢
        exact all _ _ h
  unfold main at h ⊢
  cases hp : parseBuild args with
  | none => rw [hp] at h; cases h
  | some x =>
    obtain ⟨options, k, files⟩ := x
    rw [hp] at h
    simp only at h ⊢
    cases hw : walkAll w.fs files with
    | none => rw [hw] at h; cases h
    | some t =>
      rw [hw] at h
      simp only at h ⊢
      by_cases hm : w.mkdir = true
      · rw [if_pos hm] at h ⊢
        obtain ⟨h1, rfl⟩ := key options k t h
        exact ⟨h1, options, k, files, rfl, walkAll_mem w.fs files t hw⟩
      · rw [if_neg hm] at h; cases h

/-- **C99** (what 0 means), in part: when the program ends with 0 there is an index, or nothing was found and the collection is one of the two for passages.  Missing: an index, or a report, when
nothing was found. -/
theorem C99_done_partial (w : World) (args : List (List Char)) (h : (main w args).ok = true) :
    ∃ options k files text, parseBuild args = some (options, k, files) ∧ walkAll w.fs files = some text ∧ k ≠ .json ∧ (k = .marco → text.length ≤ 1) ∧
      ((main w args).index = some text ∨ (main w args).index = none ∧ text = [] ∧ k ≠ .trec) := by
  have all : ∀ (options : List Char) (t : List (List Char)), (buildAll w options t).ok = true → (buildAll w options t).index = some t := by
    intro options t h
    unfold buildAll at h ⊢
    split at h
    · rename_i hc
      rw [if_pos hc]
    · cases h
  unfold main at h ⊢
  cases hp : parseBuild args with
  | none => rw [hp] at h; cases h
  | some x =>
    obtain ⟨options, k, files⟩ := x
    rw [hp] at h
    simp only at h ⊢
    cases hw : walkAll w.fs files with
    | none => rw [hw] at h; cases h
    | some t =>
      rw [hw] at h
      simp only at h ⊢
      by_cases hm : w.mkdir = true
      · rw [if_pos hm] at h ⊢
        refine ⟨options, k, files, t, rfl, hw, ?_, ?_, ?_⟩
        · rintro rfl; cases h
        · rintro rfl
          unfold build at h
          simp only at h
          by_cases h0 : t.length = 0
          · omega
          · rw [if_neg h0] at h
            by_cases h1 : t.length > 1
            · rw [if_pos h1] at h; cases h
            · omega
        · unfold build at h ⊢
          cases k with
          | json => cases h
          | trec => exact .inl (all _ _ h)
          | marco =>
            simp only at h ⊢
            by_cases h0 : t.length = 0
            · rw [if_pos h0]
              exact .inr ⟨rfl, List.length_eq_zero_iff.1 h0, by decide⟩
            · rw [if_neg h0] at h ⊢
              by_cases h1 : t.length > 1
              · rw [if_pos h1] at h; cases h
              · rw [if_neg h1] at h ⊢
                exact .inl (all _ _ h)
          | marco2 =>
            simp only at h ⊢
            by_cases h0 : t.length = 0
            · rw [if_pos h0]
              exact .inr ⟨rfl, List.length_eq_zero_iff.1 h0, by decide⟩
            · rw [if_neg h0] at h ⊢
              exact .inl (all _ _ h)
      · rw [if_neg hm] at h; cases h

/-- **C99** (a build is all of its steps): there is an index only when the directory was made, every file was added and the index was finalized -/
theorem C99_steps (w : World) (args text : List (List Char)) (h : (main w args).index = some text) : w.mkdir = true ∧ (∀ q ∈ text, w.add q = true) ∧ w.finalize = true ∧ ∃ options, w.maker options = true := by
  have all : ∀ (options : List Char) (t : List (List Char)), (buildAll w options t).index = some text → (∀ q ∈ text, w.add q = true) ∧ w.finalize = true ∧ ∃ options, w.maker options = true := by
    intro options t h
    unfold buildAll at h
    split at h
    · rename_i hc
      simp only [Option.some.injEq] at h
      simp only [Bool.and_eq_true, List.all_eq_true] at hc
      rw [← h]
      exact ⟨hc.1.2, hc.2, options, hc.1.1⟩
    · cases h
  unfold main at h
  cases hp : parseBuild args with
  | none => rw [hp] at h; cases h
  | some x =>
    obtain ⟨options, k, files⟩ := x
    rw [hp] at h
    simp only at h
    cases hw : walkAll w.fs files with
    | none => rw [hw] at h; cases h
    | some t =>
      rw [hw] at h
      simp only at h
      by_cases hm : w.mkdir = true
      · rw [if_pos hm] at h
        refine ⟨hm, ?_⟩
        unfold build at h
        cases k with
        | json => cases h
        | trec => exact all _ _ h
        | marco =>
          simp only at h
          by_cases h0 : t.length = 0
          · rw [if_pos h0] at h; cases h
          · rw [if_neg h0] at h
            by_cases h1 : t.length > 1
            · rw [if_pos h1] at h; cases h
            · rw [if_neg h1] at h
              exact all _ _ h
        | marco2 =>
          simp only at h
          by_cases h0 : t.length = 0
          · rw [if_pos h0] at h; cases h
          · rw [if_neg h0] at h
            exact all _ _ h
      · rw [if_neg hm] at h; cases h

/-- **C99** (builds succeed): when all the steps can be taken, a collection in files of TREC is built -/
theorem C99_builds (w : World) (args : List (List Char)) (options : List Char) (files text : List (List Char)) (hp : parseBuild args = some (options, .trec, files)) (hw : walkAll w.fs files = some text)
    (h1 : w.mkdir = true) (h2 : w.maker options = true) (h3 : ∀ q ∈ text, w.add q = true) (h4 : w.finalize = true) : main w args = ⟨true, some text⟩ := by
  unfold main
  rw [hp]
  simp only
  rw [hw]
  simp only
  rw [if_pos h1]
  unfold build buildAll
  simp only
  rw [if_pos (by rw [h2, h4, List.all_eq_true.2 h3]; rfl)]

/-- **C99** (builds of passages): these are made with the tokenizer that does not look for tags, and passages in the first format are in one file -/
theorem C99_builds_passages (w : World) (args : List (List Char)) (options : List Char) (k : Kind) (files text : List (List Char)) (hk : k = .marco ∧ text.length = 1 ∨ k = .marco2 ∧ text ≠ [])
    (hp : parseBuild args = some (options, k, files)) (hw : walkAll w.fs files = some text)
    (h1 : w.mkdir = true) (h2 : w.maker (options ++ [' ', 't', 'o', 'k', 'e', 'n', 'i', 'z', 'e', 'r', ':', 'n', 'o', 'x', 'm', 'l']) = true) (h3 : ∀ q ∈ text, w.add q = true) (h4 : w.finalize = true) :
    main w args = ⟨true, some text⟩ := by
  have hall : buildAll w (options ++ noxml) text = ⟨true, some text⟩ := by
    unfold buildAll noxml
    rw [if_pos (by rw [h2, h4, List.all_eq_true.2 h3]; rfl)]
  unfold main
  rw [hp]
  simp only
  rw [hw]
  simp only
  rw [if_pos h1]
  unfold build
  rcases hk with ⟨rfl, hl⟩ | ⟨rfl, hl⟩
  · simp only
    rw [if_neg (by omega), if_neg (by omega), hall]
  · simp only
    rw [if_neg (by simpa using hl), hall]

/-- **A collection in JSON is never built** -/
theorem C99_json (w : World) (args : List (List Char)) (options : List Char) (files : List (List Char)) (hp : parseBuild args = some (options, .json, files)) : main w args = ⟨false, none⟩ := by
  unfold main
  rw [hp]
  simp only
  cases walkAll w.fs files with
  | none => rfl
  | some t =>
    simp only
    split <;> rfl

/-- **Where no file is found, the program ends with 0 and there is no index**, for passages -/
theorem C99_nothing (w : World) (args : List (List Char)) (options : List Char) (files : List (List Char)) (k : Kind) (hk : k = .marco ∨ k = .marco2) (hp : parseBuild args = some (options, k, files))
    (hw : walkAll w.fs files = some []) (hm : w.mkdir = true) : main w args = ⟨true, none⟩ := by
  unfold main
  rw [hp]
  simp only
  rw [hw]
  simp only
  rw [if_pos hm]
  rcases hk with rfl | rfl <;> rfl

/-- **A name that is given twice is built twice** -/
theorem C99_twice (fs : List Char → Node) (p : List Char) (text : List (List Char)) (h : walk fs p = some text) : walkAll fs [p, p] = some (text ++ text) := by
  simp only [walkAll, h, List.append_nil]

/-! ### arguments of the annotation -/

theorem setKey_rest (f : Forage) (k v : List Char) : (setKey f k v).rest = f.rest := by
  unfold setKey
  split <;> rfl

theorem upto_equals : ∀ (a b : List Char), '=' ∉ a → (a ++ '=' :: b).takeWhile (· != '=') = a ∧ (a ++ '=' :: b).dropWhile (· != '=') = '=' :: b := by
  intro a b
  induction a with
  | nil => intro _; exact ⟨rfl, rfl⟩
  | cons c a ih =>
    intro h
    simp only [List.mem_cons, not_or] at h
    have hc : (c != '=') = true := by simpa using fun e : c = '=' => h.1 e.symm
    rw [List.cons_append, List.takeWhile_cons_of_pos (p := (· != '=')) hc, List.dropWhile_cons_of_pos (p := (· != '=')) hc, (ih h.2).1, (ih h.2).2]
    exact ⟨rfl, rfl⟩

theorem equals_split {a : List Char} (h : '=' ∈ a) : ∃ k v, a = k ++ '=' :: v ∧ '=' ∉ k := by
  induction a with
  | nil => cases h
  | cons c a ih =>
    by_cases hc : c = '='
    · exact ⟨[], a, by rw [hc]; rfl, by simp⟩
    · obtain ⟨k, v, h1, h2⟩ := ih ((List.mem_cons.1 h).resolve_left fun e => hc e.symm)
      exact ⟨c :: k, v, by rw [h1]; rfl, by simp [h2, Ne.symm hc]⟩

def setAll (f : Forage) (os : List Setting) : Forage := os.foldl (fun f o => setKey f o.key o.value) f

theorem options_forward : ∀ (os : List Setting) (f : Forage) (tail : List (List Char)), f.rest = [] → (∀ o ∈ os, '=' ∉ o.key) → (∀ a ∈ tail.head?, dashes.isPrefixOf a = false) →
    forageOptions f (os.flatMap Setting.args ++ tail) = some { setAll f os with rest := tail } := by
  intro os
  induction os with
  | nil =>
    intro f tail hf _ ht
    rw [List.flatMap_nil, List.nil_append]
    cases tail with
    | nil =>
      rw [forageOptions, ← hf]
      rfl
    | cons a as =>
      rw [forageOptions.eq_def]
      simp only
      rw [if_neg (by rw [ht a rfl]; decide)]
      rfl
  | cons o os ih =>
    intro f tail hf ho ht
    have hk := ho o (by simp)
    have hi := ih (setKey f o.key o.value) tail (by rw [setKey_rest, hf]) (fun x hx => ho x (by simp [hx])) ht
    rw [List.flatMap_cons, List.append_assoc]
    unfold Setting.args at hi ⊢
    cases he : o.equals with
    | true =>
      simp only [if_true, List.cons_append, List.nil_append]
      rw [forageOptions.eq_def]
      simp only
      have hd : dashes.isPrefixOf ('-' :: '-' :: (o.key ++ '=' :: o.value)) = true := by simp [dashes, List.isPrefixOf]
      have hs := upto_equals ('-' :: '-' :: o.key) o.value (by simp [hk])
      simp only [List.cons_append] at hs
      rw [if_pos hd, if_pos (by simp), hs.1, hs.2]
      exact hi
    | false =>
      simp only [Bool.false_eq_true, if_false, List.cons_append, List.nil_append]
      rw [forageOptions.eq_def]
      simp only
      have hd : dashes.isPrefixOf ('-' :: '-' :: o.key) = true := by simp [dashes, List.isPrefixOf]
      rw [if_pos hd, if_neg (by simp [hk])]
      exact hi

theorem dashes_split {a : List Char} (h : dashes.isPrefixOf a = true) : ∃ k, a = '-' :: '-' :: k := by
  obtain ⟨c, h⟩ := (prefix_split _ _).1 h
  exact ⟨c, h⟩

theorem options_back : ∀ (n : Nat) (args : List (List Char)), args.length ≤ n → ∀ (f g : Forage), forageOptions f args = some g →
    ∃ (os : List Setting) (tail : List (List Char)), args = os.flatMap Setting.args ++ tail ∧ (∀ o ∈ os, '=' ∉ o.key) ∧ ∀ a ∈ tail.head?, dashes.isPrefixOf a = false := by
  intro n
  induction n with
  | zero =>
    intro args hl f g _
    exact ⟨[], [], by rw [List.length_eq_zero_iff.1 (Nat.le_zero.1 hl)]; rfl, by simp, by simp⟩
  | succ n ih =>
    intro args hl f g h
    cases args with
    | nil => exact ⟨[], [], rfl, by simp, by simp⟩
    | cons a as =>
      rw [List.length_cons] at hl
      rw [forageOptions.eq_def] at h
      simp only at h
      by_cases hd : dashes.isPrefixOf a = true
      · rw [if_pos hd] at h
        obtain ⟨r, rfl⟩ := dashes_split hd
        by_cases he : '=' ∈ '-' :: '-' :: r
        · rw [if_pos he] at h
          obtain ⟨os, tail, h1, h2, h3⟩ := ih as (by omega) _ g h
          have he' : '=' ∈ r := by simpa using he
          obtain ⟨k, v, rfl, hk⟩ := equals_split he'
          refine ⟨⟨k, v, true⟩ :: os, tail, by rw [h1]; rfl, ?_, h3⟩
          intro o ho
          rcases List.mem_cons.1 ho with rfl | ho
          · exact hk
          · exact h2 o ho
        · rw [if_neg he] at h
          cases as with
          | nil => cases h
          | cons v bs =>
            simp only at h
            obtain ⟨os, tail, h1, h2, h3⟩ := ih bs (by rw [List.length_cons] at hl; omega) _ g h
            refine ⟨⟨r, v, false⟩ :: os, tail, by rw [h1]; rfl, ?_, h3⟩
            intro o ho
            rcases List.mem_cons.1 ho with rfl | ho
            · simpa using he
            · exact h2 o ho
      · exact ⟨[], a :: as, rfl, by simp, by
          intro x hx
          cases hx
          exact Bool.eq_false_iff.2 hd⟩

theorem setAll_meadow : ∀ (os : List Setting) (f : Forage), (setAll f os).meadow = (lastValue os meadowKey).getD f.meadow ∧
    (setAll f os).parameters = f.parameters ++ (os.filter fun o => o.key != meadowKey).map fun o => (o.key, o.value) := by
  intro os
  induction os with
  | nil => intro f; exact ⟨rfl, by simp [setAll]⟩
  | cons o os ih =>
    intro f
    have hi := ih (setKey f o.key o.value)
    have e : setAll f (o :: os) = setAll (setKey f o.key o.value) os := rfl
    rw [e, hi.1, hi.2]
    unfold setKey lastValue
    by_cases hk : o.key = meadowKey
    · rw [if_pos hk, List.filter_cons_of_pos (by simpa using hk), List.filter_cons_of_neg (by simpa using hk)]
      refine ⟨?_, rfl⟩
      rw [List.getLast?_cons]
      cases (os.filter fun o => o.key == meadowKey).getLast? <;> rfl
    · rw [if_neg hk, List.filter_cons_of_neg (by simpa using hk), List.filter_cons_of_pos (by simpa using hk)]
      exact ⟨rfl, by simp⟩

/-- **C99** (arguments of the annotation): they are taken exactly when they are options, in either form and with no `=` in a key, then a query that does not begin with two dashes, and at most two more;
the meadow is the last that was given, or the default -/
theorem C99_forage (args : List (List Char)) (f : Forage) :
    parseForage args = some f ↔
      ∃ (os : List Setting) (query : List Char) (more : List (List Char)), args = os.flatMap Setting.args ++ query :: more ∧ more.length ≤ 2 ∧ (∀ o ∈ os, '=' ∉ o.key) ∧ (∀ k, query ≠ '-' :: '-' :: k) ∧
        f.rest = query :: more ∧ f.meadow = (lastValue os ['m', 'e', 'a', 'd', 'o', 'w']).getD [] ∧
        f.parameters = (os.filter fun o => o.key != ['m', 'e', 'a', 'd', 'o', 'w']).map fun o => (o.key, o.value) := by
  constructor
  · intro h
    unfold parseForage at h
    cases hg : forageOptions ⟨[], [], []⟩ args with
    | none => rw [hg] at h; cases h
    | some g =>
      rw [hg] at h
      simp only at h
      obtain ⟨os, tail, rfl, h2, h3⟩ := options_back args.length args (Nat.le_refl _) _ g hg
      rw [options_forward os _ tail rfl h2 h3] at hg
      cases hg
      by_cases hl : tail.length < 1 ∨ tail.length > 3
      · rw [if_pos hl] at h; cases h
      · rw [if_neg hl] at h
        cases h
        cases tail with
        | nil => simp at hl
        | cons q more =>
          have hm := setAll_meadow os ⟨[], [], []⟩
          refine ⟨os, q, more, rfl, by simp at hl; omega, h2, ?_, rfl, hm.1, ?_⟩
          · intro k e
            have := h3 q rfl
            rw [e] at this
            simp [dashes, List.isPrefixOf] at this
          · simpa [meadowKey] using hm.2
  · rintro ⟨os, q, more, rfl, h1, h2, h3, h4, h5, h6⟩
    have hd : ∀ a ∈ (q :: more).head?, dashes.isPrefixOf a = false := by
      intro a ha
      cases ha
      cases hb : dashes.isPrefixOf q with
      | false => rfl
      | true =>
        obtain ⟨k, e⟩ := dashes_split hb
        exact absurd e (h3 k)
    unfold parseForage
    rw [options_forward os _ _ rfl h2 hd]
    simp only
    rw [if_neg (by rw [List.length_cons]; omega)]
    have hm := setAll_meadow os ⟨[], [], []⟩
    congr 1
    cases f
    simp only at h4 h5 h6 hm ⊢
    rw [h4, h5, h6, hm.1, hm.2]
    rfl

theorem parameter_last (f : Forage) (os : List Setting) (key : List Char) (hk : key ≠ ['m', 'e', 'a', 'd', 'o', 'w'])
    (hp : f.parameters = (os.filter fun o => o.key != ['m', 'e', 'a', 'd', 'o', 'w']).map fun o => (o.key, o.value)) : parameter f key = lastValue os key := by
  unfold parameter lastValue
  rw [hp, List.getLast?_eq_head?_reverse, ← List.filter_reverse, ← List.map_reverse, ← List.filter_reverse]
  generalize os.reverse = l
  induction l with
  | nil => rfl
  | cons o l ih =>
    by_cases h1 : o.key = key
    · rw [List.filter_cons_of_pos (by rw [h1]; simpa using hk), List.filter_cons_of_pos (by simpa using h1)]
      simp [h1]
    · rw [List.filter_cons_of_neg (p := fun o : Setting => o.key == key) (by simpa using h1), ← ih]
      by_cases h2 : o.key = ['m', 'e', 'a', 'd', 'o', 'w']
      · rw [List.filter_cons_of_neg (by simpa using h2)]
      · rw [List.filter_cons_of_pos (by simpa using h2)]
        simp [h1]

/-- **C99** (parameters): a parameter has the last value that it was given -/
theorem C99_parameter (os : List Setting) (ho : ∀ o ∈ os, '=' ∉ o.key) (query : List Char) (hq : ∀ k, query ≠ '-' :: '-' :: k) (more : List (List Char)) (f : Forage)
    (h : parseForage (os.flatMap Setting.args ++ query :: more) = some f) (key : List Char) (hk : key ≠ ['m', 'e', 'a', 'd', 'o', 'w']) : parameter f key = lastValue os key := by
  apply parameter_last f os key hk
  unfold parseForage at h
  rw [options_forward os _ _ rfl ho (by
    intro a ha
    cases ha
    cases hb : dashes.isPrefixOf query with
    | false => rfl
    | true =>
      obtain ⟨k, e⟩ := dashes_split hb
      exact absurd e (hq k))] at h
  simp only at h
  split at h
  · cases h
  · cases h
    simpa [meadowKey] using (setAll_meadow os ⟨[], [], []⟩).2

/-- **A query that begins with two dashes cannot be given**: it is taken for an option, also after `--` -/
theorem C99_dashes (os : List Setting) (ho : ∀ o ∈ os, '=' ∉ o.key) (k : List Char) : parseForage (os.flatMap Setting.args ++ ['-' :: '-' :: k]) = none := by
  have key : ∀ (os : List Setting), (∀ o ∈ os, '=' ∉ o.key) → parseForage (os.flatMap Setting.args) = none := by
    intro os ho
    unfold parseForage
    have := options_forward os ⟨[], [], []⟩ [] rfl ho (by simp)
    rw [List.append_nil] at this
    rw [this]
    rfl
  by_cases he : '=' ∈ k
  · obtain ⟨a, v, rfl, ha⟩ := equals_split he
    have := key (os ++ [⟨a, v, true⟩]) (by
      intro o h
      rcases List.mem_append.1 h with h | h
      · exact ho o h
      · rw [List.mem_singleton.1 h]; exact ha)
    rw [List.flatMap_append] at this
    exact this
  · cases hp : parseForage (os.flatMap Setting.args ++ ['-' :: '-' :: k]) with
    | none => rfl
    | some f =>
      exfalso
      unfold parseForage at hp
      have : ∀ (os : List Setting), (∀ o ∈ os, '=' ∉ o.key) → ∀ f, forageOptions f (os.flatMap Setting.args ++ ['-' :: '-' :: k]) = none := by
        intro os
        induction os with
        | nil =>
          intro _ f
          rw [List.flatMap_nil, List.nil_append, forageOptions.eq_def]
          simp only
          rw [if_pos (by simp [dashes, List.isPrefixOf]), if_neg (by simp [he])]
        | cons o os ih =>
          intro ho f
          have hk := ho o (by simp)
          have hi := ih (fun x hx => ho x (by simp [hx]))
          rw [List.flatMap_cons, List.append_assoc]
          generalize os.flatMap Setting.args ++ ['-' :: '-' :: k] = rest at hi
          unfold Setting.args
          cases o.equals with
          | true =>
            simp only [if_true, List.cons_append, List.nil_append]
            rw [forageOptions.eq_def]
            simp only
            rw [if_pos (by simp [dashes, List.isPrefixOf]), if_pos (by simp)]
            exact hi _
          | false =>
            simp only [Bool.false_eq_true, if_false, List.cons_append, List.nil_append]
            rw [forageOptions.eq_def]
            simp only
            rw [if_pos (by simp [dashes, List.isPrefixOf]), if_neg (by simp [hk])]
            exact hi _
      rw [this os ho] at hp
      cases hp

/-! ### examples -/

def someTree : Node := .dir (.cons ['a'] .file (.cons ['R', 'e', 'a', 'd', 'M', 'e'] .file (.cons ['d'] (.dir (.cons ['b'] .file .nil)) (.cons ['s'] .other .nil))))
def someFs (p : List Char) : Node := if p = ['x'] then someTree else if p = ['r', 'e', 'a', 'd', 'm', 'e'] then someTree else if p = ['k'] then .locked else .other
def buildWorld : World := ⟨someFs, true, fun _ => true, fun _ => true, true⟩

example : walk someFs ['x'] = some [['x', '/', 'a'], ['x', '/', 'd', '/', 'b']] := by decide +kernel
example : walk someFs ['r', 'e', 'a', 'd', 'm', 'e'] = some [] := by decide +kernel
example : MentionsReadme ['r', 'e', 'a', 'd', 'm', 'e'] := ⟨[], ['r', 'e', 'a', 'd', 'm', 'e'], [], rfl, by decide⟩
example : walk someFs ['k'] = none := (C99_refused _ _).2 (.inr .here)
example : parseBuild [['t', ':', 'x'], kindFlag .marco2, filesFlag, ['x'], ['-', 'y']] = some ([' ', 't', ':', 'x'], .marco2, [['x'], ['-', 'y']]) := by decide +kernel
example : main buildWorld [filesFlag, ['x']] = ⟨true, some [['x', '/', 'a'], ['x', '/', 'd', '/', 'b']]⟩ := by decide +kernel
example : main buildWorld [kindFlag .marco2, filesFlag, ['x']] = ⟨true, some [['x', '/', 'a'], ['x', '/', 'd', '/', 'b']]⟩ := by decide +kernel
example : main buildWorld [kindFlag .marco, filesFlag, ['x']] = ⟨false, none⟩ := by decide +kernel
example : main buildWorld [kindFlag .marco, filesFlag, ['r', 'e', 'a', 'd', 'm', 'e']] = ⟨true, none⟩ := by decide +kernel
example : main buildWorld [kindFlag .json, filesFlag, ['x']] = ⟨false, none⟩ := by decide +kernel
example : parseForage [['-', '-', 'a', '=', 'b', '=', 'c'], ['-', '-', 'm', 'e', 'a', 'd', 'o', 'w'], ['m'], ['q'], ['n']] = some ⟨['m'], [(['a'], ['b', '=', 'c'])], [['q'], ['n']]⟩ := by decide +kernel
example : parseForage [['-', '-'], ['-', '-', 'q']] = none := by decide +kernel
example := C99_dashes [⟨['a'], ['b'], false⟩] (by simp) ['q']
example := C99_parameter [⟨['a'], ['b'], false⟩, ⟨['a'], ['c'], true⟩] (by simp) ['q'] (by simp) [] _ rfl ['a'] (by decide)

end Verif.Props
