import Verif.Builds.Model
/-
  C109: a command that builds an index says 0 if and only if the index was written with all files that it was given, in their order, in the burrow that it was given.
-/
namespace Verif.Props
open Verif.Builds

theorem addAll_true {read : Kind → List Char → Read} (fs : List (Kind × List Char)) : (addAll read fs).2 = true ↔ ∀ kf ∈ fs, read kf.1 kf.2 ≠ .refused := by
  induction fs with
  | nil => simp [addAll]
  | cons a fs ih =>
    obtain ⟨k, f⟩ := a
    unfold addAll
    by_cases c : read k f = .refused
    · rw [if_pos c]
      simp [c]
    · rw [if_neg c]
      simp only [ih, List.mem_cons]
      constructor
      · rintro h kf (e | e)
        · subst e; exact c
        · exact h kf e
      · intro h kf e
        exact h kf (.inr e)

theorem addAll_files {read : Kind → List Char → Read} (fs : List (Kind × List Char)) (h : (addAll read fs).2 = true) : (addAll read fs).1 = fs := by
  induction fs with
  | nil => rfl
  | cons a fs ih =>
    obtain ⟨k, f⟩ := a
    rw [addAll] at *
    by_cases c : read k f = .refused
    · rw [if_pos c] at h; cases h
    · rw [if_neg c] at h ⊢
      have h' : (addAll read fs).2 = true := h
      show (k, f) :: (addAll read fs).1 = _
      rw [ih h']

/-- **C109** (a build): it ends with 0 if and only if everything was possible; then the index is written with all files in their order, and otherwise the status is -1 and no index is written -/
theorem C109_build (env : Env) (burrow : List Char) (files : List (Kind × List Char)) :
    (Able env burrow files ∧ build env burrow files = ⟨0, some burrow, files, true⟩) ∨ (¬ Able env burrow files ∧ (build env burrow files).status = -1 ∧ (build env burrow files).written = false) := by
  unfold build Able
  by_cases c1 : env.mkdir burrow = false
  · rw [if_pos c1]
    exact .inr ⟨fun h => (by simp [c1] at h), rfl, rfl⟩
  rw [if_neg c1]
  by_cases c2 : env.make burrow = false
  · rw [if_pos c2]
    exact .inr ⟨fun h => (by simp [c2] at h), rfl, rfl⟩
  rw [if_neg c2]
  by_cases c3 : (addAll env.read files).2 = false
  · rw [if_pos c3]
    refine .inr ⟨fun h => ?_, rfl, rfl⟩
    rw [(addAll_true files).2 h.2.2.1] at c3
    cases c3
  rw [if_neg c3]
  have c3' : (addAll env.read files).2 = true := by simpa using c3
  by_cases c4 : env.finalize burrow = false
  · rw [if_pos c4]
    exact .inr ⟨fun h => (by simp [c4] at h), rfl, rfl⟩
  rw [if_neg c4]
  exact .inl ⟨⟨by simpa using c1, by simpa using c2, (addAll_true files).1 c3', by simpa using c4⟩, by rw [addAll_files files c3']⟩

/-- **C109** (the first file refused): files are added up to the first that is refused, and no other is looked at -/
theorem C109_first_refused (env : Env) (burrow : List Char) (before after : List (Kind × List Char)) (k : Kind) (f : List Char) (h1 : env.mkdir burrow = true) (h2 : env.make burrow = true)
    (hb : ∀ kf ∈ before, env.read kf.1 kf.2 ≠ .refused) (hf : env.read k f = .refused) :
    build env burrow (before ++ (k, f) :: after) = ⟨-1, some burrow, before, false⟩ := by
  have key : ∀ l : List (Kind × List Char), (∀ kf ∈ l, env.read kf.1 kf.2 ≠ .refused) → addAll env.read (l ++ (k, f) :: after) = (l, false) := by
    intro l
    induction l with
    | nil => intro _; simp [addAll, hf]
    | cons a l ih =>
      obtain ⟨k', f'⟩ := a
      intro h
      have := h (k', f') (by simp)
      rw [List.cons_append, addAll, if_neg this, ih fun kf hkf => h kf (by simp [hkf])]
  unfold build
  rw [key before hb, h1, h2]
  rfl

theorem burrowOf_args {r : Request} (h : r.Plain) : r.args ≠ [helpFlag] ∧ burrowOf r.args = (r.place, r.files) := by
  obtain ⟨b, fs⟩ := r
  obtain ⟨h1, h2⟩ := h
  dsimp only at h1 h2
  cases b with
  | some b =>
    refine ⟨by simp [Request.args], ?_⟩
    simp [Request.args, burrowOf, Request.place]
  | none =>
    match fs, h1, h2 with
    | [f], _, h2 =>
      have := (h2 f (by simp)).1
      exact ⟨by simpa [Request.args] using this, rfl⟩
    | f :: g :: fs, _, h2 =>
      have := h2 f (by simp)
      refine ⟨by simp [Request.args], ?_⟩
      show burrowOf (f :: g :: fs) = _
      rw [burrowOf, if_neg (fun c : f = bFlag ∨ f = burrowFlag => c.elim this.2.1 this.2.2)]
      rfl

/-- **C109** (files): a command for files, as its usage has it, ends with 0 if and only if the index could be built; then it is written in the burrow that was meant, with all files in the order given -/
theorem C109_files (k : Kind) (env : Env) (r : Request) (h : r.Plain) :
    ((buildFiles k env r.args).status = 0 ↔ Able env r.place (r.files.map fun f => (k, f))) ∧
    ((buildFiles k env r.args).status = 0 → buildFiles k env r.args = ⟨0, some r.place, r.files.map fun f => (k, f), true⟩) ∧
    ((buildFiles k env r.args).status ≠ 0 → (buildFiles k env r.args).written = false) := by
  obtain ⟨h1, h2⟩ := burrowOf_args h
  have e : buildFiles k env r.args = build env r.place (r.files.map fun f => (k, f)) := by
    unfold buildFiles
    rw [if_neg h1, h2, if_neg h.1]
  rw [e]
  rcases C109_build env r.place (r.files.map fun f => (k, f)) with ⟨a, b⟩ | ⟨a, b, c⟩
  · rw [b]
    exact ⟨⟨fun _ => a, fun _ => rfl⟩, fun _ => rfl, fun c => absurd rfl c⟩
  · rw [b]
    exact ⟨⟨fun c => (by cases c), fun c => absurd c a⟩, fun c => (by cases c), fun _ => c⟩

/-- **C109** (0): whatever the arguments are, a command for files that ends with 0 was asked for help, or has written the index of the burrow that its arguments name with all the files that they name -/
theorem C109_zero (k : Kind) (env : Env) (args : List (List Char)) (h : (buildFiles k env args).status = 0) :
    args = [helpFlag] ∨ ∃ b files, files ≠ [] ∧ buildFiles k env args = ⟨0, some b, files.map fun f => (k, f), true⟩ ∧
      ((args = files ∧ b = defaultBurrow) ∨ args = bFlag :: b :: files ∨ args = burrowFlag :: b :: files) := by
  by_cases c : args = [helpFlag]
  · exact .inl c
  unfold buildFiles at *
  rw [if_neg c] at h ⊢
  by_cases c2 : (burrowOf args).2 = []
  · rw [if_pos c2] at h; cases h
  rw [if_neg c2] at h ⊢
  refine .inr ⟨(burrowOf args).1, (burrowOf args).2, c2, ?_, ?_⟩
  · rcases C109_build env (burrowOf args).1 ((burrowOf args).2.map fun f => (k, f)) with ⟨-, b⟩ | ⟨-, b, -⟩
    · exact b
    · rw [b] at h; cases h
  · match args with
    | [] => exact .inl ⟨rfl, rfl⟩
    | [_] => exact .inl ⟨rfl, rfl⟩
    | f :: b :: rest =>
      rw [burrowOf]
      by_cases g : f = bFlag ∨ f = burrowFlag
      · rw [if_pos g]
        rcases g with g | g
        · rw [g]; exact .inr (.inl rfl)
        · rw [g]; exact .inr (.inr rfl)
      · rw [if_neg g]; exact .inl ⟨rfl, rfl⟩

/-- **C109** (two files): the command for passages and articles takes exactly two files, and builds with the first as passages and the second as articles -/
theorem C109_cast20 (env : Env) (r : Request) (h : r.Plain) :
    (∀ m c, r.files = [m, c] → buildCast20 env r.args = build env r.place [(.marco, m), (.car, c)]) ∧ (r.files.length ≠ 2 → buildCast20 env r.args = ⟨1, none, [], false⟩) := by
  obtain ⟨h1, h2⟩ := burrowOf_args h
  unfold buildCast20
  rw [if_neg h1, h2]
  refine ⟨fun m c e => by rw [e], fun hl => ?_⟩
  match r.files, hl with
  | [], _ => rfl
  | [_], _ => rfl
  | [_, _], hl => exact absurd rfl hl
  | _ :: _ :: _ :: _, _ => rfl

/-- **C109** (nothing asked): without files, or when asked for help, nothing is built; the first is a failure but for `jsonl` -/
theorem C109_nothing (k : Kind) (env env' : Env) (b : List Char) :
    (∀ args, args = [helpFlag] → buildFiles k env args = ⟨0, none, [], false⟩ ∧ buildCast20 env args = ⟨0, none, [], false⟩ ∧ buildJsonl env env' args = ⟨0, none, [], false⟩) ∧
    (∀ args, args = [] ∨ args = [burrowFlag, b] → buildFiles k env args = ⟨1, none, [], false⟩ ∧ buildCast20 env args = ⟨1, none, [], false⟩) ∧ buildJsonl env env' [] = ⟨0, none, [], false⟩ := by
  refine ⟨fun args e => ?_, fun args e => ?_, by simp [buildJsonl, nothing, helpFlag]⟩
  · subst e; exact ⟨rfl, rfl, rfl⟩
  · rcases e with e | e <;> subst e
    · exact ⟨rfl, rfl⟩
    · exact ⟨by simp [buildFiles, burrowOf, nothing, helpFlag], by simp [buildCast20, burrowOf, nothing, helpFlag]⟩

/-- **C109** (JSON), in part: when the index can be written, `jsonl` ends with 0 if and only if all files could be read, and then the index of the sort asked for has them all in their order.  Missing: when it cannot be
written (`C109_unwritten`). -/
theorem C109_jsonl_partial (simple bigwig : Env) (flag : Bool) (files : List (List Char)) (hw : (if flag then simple else bigwig).finalize jsonBurrow = true) :
    let out := buildJsonl simple bigwig ((if flag then simpleFlag else bigwigFlag) :: files)
    let env := if flag then simple else bigwig
    (out.status = 0 ↔ (flag = true → env.mkdir jsonBurrow = true) ∧ env.make jsonBurrow = true ∧ ∀ f ∈ files, env.read .jsonl f ≠ .refused) ∧
    (out.status = 0 → out = ⟨0, some jsonBurrow, files.map fun f => (.jsonl, f), true⟩) ∧ (out.status ≠ 0 → out.written = false) := by
  have hflag : flagOf ((if flag then simpleFlag else bigwigFlag) :: files) = (flag, files) := by
    cases flag
    · simp [flagOf, simpleFlag, bigwigFlag]
    · simp [flagOf]
  have hne : ((if flag then simpleFlag else bigwigFlag) :: files) ≠ [helpFlag] := by
    intro c
    injection c with c _
    cases flag <;> simp [simpleFlag, bigwigFlag, helpFlag] at c
  dsimp only
  unfold buildJsonl
  rw [if_neg hne, if_neg (by simp), hflag]
  dsimp only
  generalize (if flag = true then simple else bigwig) = env at *
  have hall : (∀ f ∈ files, env.read .jsonl f ≠ .refused) ↔ (addAll env.read (files.map fun f => (Kind.jsonl, f))).2 = true := by
    rw [addAll_true]
    simp
  rw [hall]
  by_cases c1 : (flag && !env.mkdir jsonBurrow) = true
  · rw [if_pos c1]
    refine ⟨⟨fun c => (by cases c), fun c => ?_⟩, fun c => (by cases c), fun _ => rfl⟩
    have := c.1
    cases flag <;> simp_all
  rw [if_neg c1]
  have c1' : flag = true → env.mkdir jsonBurrow = true := by
    intro e
    rw [e] at c1
    simpa using c1
  by_cases c2 : env.make jsonBurrow = false
  · rw [if_pos c2]
    exact ⟨⟨fun c => (by cases c), fun c => (by rw [c2] at c; exact absurd c.2.1 (by simp))⟩, fun c => (by cases c), fun _ => rfl⟩
  rw [if_neg c2]
  by_cases c3 : (addAll env.read (files.map fun f => (Kind.jsonl, f))).2 = false
  · rw [if_pos c3]
    exact ⟨⟨fun c => (by cases c), fun c => (by rw [c3] at c; exact absurd c.2.2 (by simp))⟩, fun c => (by cases c), fun _ => rfl⟩
  rw [if_neg c3]
  have c3' : (addAll env.read (files.map fun f => (Kind.jsonl, f))).2 = true := by simpa using c3
  refine ⟨⟨fun _ => ⟨c1', by simpa using c2, c3'⟩, fun _ => rfl⟩, fun _ => ?_, fun c => absurd rfl c⟩
  rw [addAll_files _ c3', hw]

/-- **C109** (JSON, no option): files without an option before them are built as with `--simple` -/
theorem C109_jsonl_simple (simple bigwig : Env) (f : List Char) (files : List (List Char)) (h1 : f ≠ simpleFlag) (h2 : f ≠ bigwigFlag) (h3 : f :: files ≠ [helpFlag]) :
    buildJsonl simple bigwig (f :: files) = buildJsonl simple bigwig (simpleFlag :: f :: files) := by
  have e1 : flagOf (f :: files) = (true, f :: files) := by rw [flagOf, if_neg h1, if_neg h2]
  have e2 : flagOf (simpleFlag :: f :: files) = (true, f :: files) := by rw [flagOf, if_pos rfl]
  unfold buildJsonl
  rw [e1, e2, if_neg h3, if_neg (List.cons_ne_nil f files), if_neg (show simpleFlag :: f :: files ≠ [helpFlag] by simp), if_neg (List.cons_ne_nil simpleFlag (f :: files))]

/-- **Success without an index**: when the index cannot be written, `jsonl` ends with 0 all the same -/
theorem C109_unwritten (simple bigwig : Env) (files : List (List Char)) (h1 : bigwig.make jsonBurrow = true) (h2 : ∀ f ∈ files, bigwig.read .jsonl f ≠ .refused) (h3 : bigwig.finalize jsonBurrow = false) :
    (buildJsonl simple bigwig (bigwigFlag :: files)).status = 0 ∧ (buildJsonl simple bigwig (bigwigFlag :: files)).written = false := by
  have h : (addAll bigwig.read (files.map fun f => (Kind.jsonl, f))).2 = true := by
    rw [addAll_true]
    simpa using h2
  simp [buildJsonl, flagOf, simpleFlag, bigwigFlag, helpFlag] at *
  simp [h1, h, h3]

/-- **A collection that is cut is a success**: articles that end in the middle are added up to there, and the command ends with 0 -/
theorem C109_cut (env : Env) (m c : List Char) (b : List Char) (hm : env.mkdir b = true) (hk : env.make b = true) (h1 : env.read .marco m = .whole) (h2 : env.read .car c = .cut) (hw : env.finalize b = true) :
    buildCast20 env [burrowFlag, b, m, c] = ⟨0, some b, [(.marco, m), (.car, c)], true⟩ := by
  simp [buildCast20, burrowOf, build, addAll, hm, hk, h1, h2, hw, helpFlag]

/-- **The option as the usage has it is a file**: `---bigwig` builds no changing index, but is the name of the first file of a simple one -/
theorem C109_dashes (simple bigwig : Env) (files : List (List Char)) (h1 : simple.mkdir jsonBurrow = true) (h2 : simple.make jsonBurrow = true) (h3 : simple.read .jsonl ('-' :: bigwigFlag) = .refused) :
    buildJsonl simple bigwig (('-' :: bigwigFlag) :: files) = ⟨1, some jsonBurrow, [], false⟩ := by
  have h3' : simple.read .jsonl ['-', '-', '-', 'b', 'i', 'g', 'w', 'i', 'g'] = .refused := h3
  simp [buildJsonl, flagOf, simpleFlag, bigwigFlag, helpFlag, h1, h2, addAll, h3']

/-! ### examples -/

/-- a system in which only the file `x` cannot be read -/
def exampleBuilds : Env := ⟨fun _ => true, fun _ => true, fun _ f => if f = ['x'] then .refused else .whole, fun _ => true⟩

example : buildFiles .c4 exampleBuilds [['-', 'b'], ['d'], ['a'], ['c']] = ⟨0, some ['d'], [(.c4, ['a']), (.c4, ['c'])], true⟩ := by decide +kernel
example : buildFiles .cast22 exampleBuilds [['a'], ['x'], ['c']] = ⟨-1, some defaultBurrow, [(.cast22, ['a'])], false⟩ := by decide +kernel
example : buildJsonl exampleBuilds exampleBuilds [['a'], ['c']] = ⟨0, some jsonBurrow, [(.jsonl, ['a']), (.jsonl, ['c'])], true⟩ := by decide +kernel
example : (⟨some ['d'], [['a'], ['c']]⟩ : Request).Plain := by simp [Request.Plain, helpFlag, bFlag, burrowFlag]
example : Able exampleBuilds ['d'] [(.c4, ['a']), (.c4, ['c'])] := by simp [Able, exampleBuilds]

end Verif.Props
