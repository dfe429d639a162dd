import Verif.Scratch.Model
/-
  C111: a text file is added whole or not at all, with its lines and itself marked over exactly their words.
-/
namespace Verif.Props
open Verif.Scratch

/-- the state after lines with `n` words before the next -/
def ScratchAt (env : Env) (n : Nat) (texts : List (List Char)) (marks : List Mark) (s : Loop) : Prop :=
  s.next = n ∧ s.texts = texts ∧ s.marks = marks ∧ (s.haveTokens = true ↔ 0 < n) ∧ (0 < n → s.fileP = 0 ∧ s.fileQ = n - 1) ∧ (n = 0 → s.fileP = maxfinity ∧ s.fileQ = -2 ^ 63)

theorem scratch_loop (env : Env) (ls : List (List Char)) : ∀ (n : Nat) (texts : List (List Char)) (marks : List Mark) (s : Loop), ScratchAt env n texts marks s → n + wordCount env.words ls < 2 ^ 63 →
    ((∀ l ∈ ls, env.append (l ++ ['\n']) = true) ∧ (∀ m ∈ lineMarks env.words n ls, env.annotate m = true) →
      ∃ s', loop env s ls = some s' ∧ ScratchAt env (n + wordCount env.words ls) (texts ++ ls.map (· ++ ['\n'])) (marks ++ lineMarks env.words n ls) s') ∧
    (¬ ((∀ l ∈ ls, env.append (l ++ ['\n']) = true) ∧ (∀ m ∈ lineMarks env.words n ls, env.annotate m = true)) → loop env s ls = none) := by
  induction ls with
  | nil =>
    intro n texts marks s h _
    refine ⟨fun _ => ⟨s, rfl, ?_⟩, fun c => absurd ⟨by simp, by simp [lineMarks]⟩ c⟩
    simpa [wordCount, lineMarks] using h
  | cons l ls ih =>
    intro n texts marks s h hlt
    have hw : wordCount env.words (l :: ls) = env.words (l ++ ['\n']) + wordCount env.words ls := by simp [wordCount]
    rw [hw] at hlt ⊢
    rw [loop]
    generalize hk : env.words (l ++ ['\n']) = k at *
    obtain ⟨h1, h2, h3, h4, h5, h6⟩ := h
    by_cases ca : env.append (l ++ ['\n']) = false
    · have e : step env s l = none := by unfold step; simp [ca]
      rw [e]
      exact ⟨fun c => (by have := c.1 l (by simp); rw [ca] at this; cases this), fun _ => rfl⟩
    have ca' : env.append (l ++ ['\n']) = true := by simpa using ca
    by_cases ck : k = 0
    · have e : step env s l = some { s with texts := s.texts ++ [l ++ ['\n']] } := by
        unfold step
        simp only [ca', hk, ck]
        rw [if_neg (by simp), if_neg (by simp; omega)]
      rw [e]
      obtain ⟨i1, i2⟩ := ih n (texts ++ [l ++ ['\n']]) marks { s with texts := s.texts ++ [l ++ ['\n']] } ⟨h1, by rw [← h2], h3, h4, h5, h6⟩ (by omega)
      have em : lineMarks env.words n (l :: ls) = lineMarks env.words n ls := by simp [lineMarks, hk, ck]
      rw [em, ck, Nat.zero_add]
      refine ⟨fun c => ?_, fun c => i2 fun g => c ⟨?_, g.2⟩⟩
      · obtain ⟨s', a, b⟩ := i1 ⟨fun x hx => c.1 x (by simp [hx]), c.2⟩
        refine ⟨s', a, ?_⟩
        rw [List.map_cons, ← List.singleton_append (l := ls.map _), ← List.append_assoc]
        exact b
      · intro x hx
        rcases List.mem_cons.1 hx with e | e
        · rw [e]; exact ca'
        · exact g.1 x e
    · have em : lineMarks env.words n (l :: ls) = ⟨n, n + k - 1⟩ :: lineMarks env.words (n + k) ls := by simp [lineMarks, hk, ck]
      rw [em]
      by_cases cm : env.annotate ⟨n, n + k - 1⟩ = false
      · have e : step env s l = none := by
          unfold step
          simp only [ca', hk, h1, cm]
          rw [if_neg (by simp), if_pos (by omega), if_pos trivial]
        rw [e]
        exact ⟨fun c => (by have := c.2 _ List.mem_cons_self; rw [cm] at this; cases this), fun _ => rfl⟩
      have cm' : env.annotate ⟨n, n + k - 1⟩ = true := by simpa using cm
      have e : step env s l = some ⟨(n : Int) + k - 1 + 1, s.texts ++ [l ++ ['\n']], s.marks ++ [⟨n, n + k - 1⟩], min s.fileP n, max s.fileQ (n + k - 1), true⟩ := by
        unfold step
        simp only [ca', hk, h1, cm']
        rw [if_neg (by simp), if_pos (by omega), if_neg (by simp)]
      rw [e]
      dsimp only
      obtain ⟨i1, i2⟩ := ih (n + k) (texts ++ [l ++ ['\n']]) (marks ++ [⟨n, n + k - 1⟩]) ⟨(n : Int) + k - 1 + 1, s.texts ++ [l ++ ['\n']], s.marks ++ [⟨n, n + k - 1⟩], min s.fileP n, max s.fileQ (n + k - 1), true⟩
        ⟨by dsimp only; omega, by rw [← h2], by rw [← h3], ⟨fun _ => by omega, fun _ => rfl⟩, fun _ => by
          dsimp only
          by_cases c0 : n = 0
          · obtain ⟨a, b⟩ := h6 c0
            rw [a, b, c0]
            unfold maxfinity
            constructor <;> omega
          · obtain ⟨a, b⟩ := h5 (by omega)
            rw [a, b]
            constructor <;> omega, fun c => by omega⟩ (by omega)
      refine ⟨fun c => ?_, fun c => i2 fun g => c ⟨?_, ?_⟩⟩
      · obtain ⟨s', a, b⟩ := i1 ⟨fun x hx => c.1 x (by simp [hx]), fun m hm => c.2 m (by simp [hm])⟩
        refine ⟨s', a, ?_⟩
        rw [List.map_cons, ← List.singleton_append (l := ls.map _), ← List.append_assoc, ← List.singleton_append (l := lineMarks _ _ _), ← List.append_assoc, ← Nat.add_assoc]
        exact b
      · intro x hx
        rcases List.mem_cons.1 hx with e | e
        · rw [e]; exact ca'
        · exact g.1 x e
      · intro m hm
        rcases List.mem_cons.1 hm with e | e
        · rw [e]; exact cm'
        · exact g.2 m e

/-- **C111** (whole or not at all): a file is committed if and only if it can be opened, has a word, and nothing fails; then all its lines are in the text in their order, each that has words is marked from its first word to
its last, and the file is from the first word of all to the last -/
theorem C111_file (env : Env) (name : List Char) (s : Staged) (hlt : ∀ ls, env.lines name = some ls → wordCount env.words ls < 2 ^ 63) :
    appendFile env name = some s ↔ ∃ ls, env.lines name = some ls ∧ 0 < wordCount env.words ls ∧ Smooth env name ls ∧
      s = ⟨ls.map (· ++ ['\n']), lineMarks env.words 0 ls, some ⟨0, (wordCount env.words ls : Int) - 1⟩⟩ := by
  unfold appendFile
  cases hl : env.lines name with
  | none => exact ⟨fun c => (by cases c), fun ⟨_, c, _⟩ => (by cases c)⟩
  | some ls =>
    dsimp only
    have hx : ∀ P : List (List Char) → Prop, (∃ ls', some ls = some ls' ∧ P ls') ↔ P ls := fun P => ⟨fun ⟨_, e, h⟩ => (by injection e with e; rw [e]; exact h), fun h => ⟨ls, rfl, h⟩⟩
    rw [hx fun ls => 0 < wordCount env.words ls ∧ Smooth env name ls ∧ s = ⟨ls.map (· ++ ['\n']), lineMarks env.words 0 ls, some ⟨0, (wordCount env.words ls : Int) - 1⟩⟩]
    obtain ⟨k1, k2⟩ := scratch_loop env ls 0 [] [] Loop.start ⟨rfl, rfl, rfl, by simp [Loop.start], fun c => by omega, fun _ => ⟨rfl, rfl⟩⟩ (by have := hlt ls hl; omega)
    by_cases c1 : env.transaction name = false
    · rw [if_pos c1]
      exact ⟨fun c => (by cases c), fun c => (by have := c.2.1.1; rw [c1] at this; cases this)⟩
    rw [if_neg c1]
    by_cases c2 : (∀ l ∈ ls, env.append (l ++ ['\n']) = true) ∧ (∀ m ∈ lineMarks env.words 0 ls, env.annotate m = true)
    · obtain ⟨s', e, g1, g2, g3, g4, g5, g6⟩ := k1 c2
      rw [Nat.zero_add] at g4 g5
      rw [e]
      dsimp only
      by_cases c3 : env.bad name = true
      · rw [if_pos c3]
        exact ⟨fun c => (by cases c), fun c => (by have := c.2.1.2.1; rw [c3] at this; cases this)⟩
      rw [if_neg c3]
      by_cases c4 : s'.haveTokens = false
      · rw [if_pos c4]
        exact ⟨fun c => (by cases c), fun c => (by have := g4.2 c.1; rw [c4] at this; cases this)⟩
      rw [if_neg c4]
      have hpos := g4.1 (by simpa using c4)
      rw [(g5 hpos).1, (g5 hpos).2, g2, g3]
      by_cases c5 : env.annotate ⟨0, (wordCount env.words ls : Int) - 1⟩ = false
      · rw [if_pos c5]
        exact ⟨fun c => (by cases c), fun c => (by have := c.2.1.2.2.2.2.2; rw [c5] at this; cases this)⟩
      rw [if_neg c5]
      by_cases c6 : env.ready name = false
      · rw [if_pos c6]
        exact ⟨fun c => (by cases c), fun c => (by have := c.2.1.2.2.1; rw [c6] at this; cases this)⟩
      rw [if_neg c6]
      constructor
      · intro c
        injection c with c
        exact ⟨hpos, ⟨by simpa using c1, by simpa using c3, by simpa using c6, c2.1, c2.2, by simpa using c5⟩, c.symm⟩
      · intro c
        rw [c.2.2]; rfl
    · rw [k2 c2]
      exact ⟨fun c => (by cases c), fun c => absurd ⟨c.2.1.2.2.2.1, c.2.1.2.2.2.2.1⟩ c2⟩

/-- **C111** (files): the command ends with 0 if and only if every file was committed; in any case those before the first that fails are committed, in their order, and no others -/
theorem C111_files (env : Env) (files : List (List Char)) :
    ((appendAll env files).2 = 0 ↔ ∀ f ∈ files, (appendFile env f).isSome) ∧ (appendAll env files).1 = (files.takeWhile fun f => (appendFile env f).isSome).filterMap (appendFile env) := by
  induction files with
  | nil => exact ⟨by simp [appendAll], rfl⟩
  | cons f fs ih =>
    rw [appendAll]
    cases h : appendFile env f with
    | none =>
      refine ⟨⟨fun c => (by cases c), fun c => ?_⟩, ?_⟩
      · have := c f (by simp); rw [h] at this; cases this
      · rw [List.takeWhile_cons_of_neg (by simp [h])]; rfl
    | some s =>
      dsimp only
      rw [ih.1, ih.2, List.takeWhile_cons_of_pos (by simp [h]), List.filterMap_cons_some h]
      refine ⟨⟨fun c x hx => ?_, fun c x hx => c x (by simp [hx])⟩, rfl⟩
      rcases List.mem_cons.1 hx with e | e
      · rw [e, h]; rfl
      · exact c x e

/-- **C111** (arguments): of several burrows the last is meant, of none the default one, and all arguments after them are files -/
theorem C111_arguments (bs : List (Bool × List Char)) (files : List (List Char)) (burrow : List Char) (hf : ∀ f, files.head? = some f → f ≠ bFlag ∧ f ≠ burrowFlag) :
    options burrow ((bs.flatMap fun b => [if b.1 then bFlag else burrowFlag, b.2]) ++ files) = (((bs.map (·.2)).getLast?).getD burrow, files) := by
  induction bs generalizing burrow with
  | nil =>
    show options burrow files = _
    match files, hf with
    | [], _ => rfl
    | [_], _ => rfl
    | f :: g :: fs, hf =>
      have := hf f rfl
      rw [options, if_neg (fun c : f = bFlag ∨ f = burrowFlag => c.elim this.1 this.2)]
      rfl
  | cons b bs ih =>
    show options burrow ((if b.1 then bFlag else burrowFlag) :: b.2 :: ((bs.flatMap fun b => [if b.1 then bFlag else burrowFlag, b.2]) ++ files)) = _
    rw [options, if_pos (by cases b.1 <;> simp), ih]
    cases bs with
    | nil => rfl
    | cons c bs => simp [List.getLast?_cons]

/-- **C111** (command): with files the command commits to the burrow that is meant, and its status is 0 if and only if every file was committed -/
theorem C111_command (make : List Char → Bool) (env : Env) (b : List Char) (files : List (List Char)) (hne : files ≠ []) (hf : ∀ f, files.head? = some f → f ≠ bFlag ∧ f ≠ burrowFlag) (hm : make b = true) :
    ∃ done, command make env (burrowFlag :: b :: files) = (some (b, done), (appendAll env files).2) ∧ done = (files.takeWhile fun f => (appendFile env f).isSome).filterMap (appendFile env) ∧
      ((command make env (burrowFlag :: b :: files)).2 = 0 ↔ ∀ f ∈ files, (appendFile env f).isSome) := by
  have e : options defaultBurrow (burrowFlag :: b :: files) = (b, files) := C111_arguments [(false, b)] files defaultBurrow hf
  have e2 : command make env (burrowFlag :: b :: files) = (some (b, (appendAll env files).1), (appendAll env files).2) := by
    unfold command
    rw [if_neg (by simp), e, if_neg hne, if_neg (by simp [hm])]
  refine ⟨_, e2, (C111_files env files).2, ?_⟩
  rw [e2]
  exact (C111_files env files).1

/-- **A file without words ends the command**: files after it are not added -/
theorem C111_wordless (env : Env) (f : List Char) (fs : List (List Char)) (hl : env.lines f = some []) : appendAll env (f :: fs) = ([], 1) := by
  have : appendFile env f = none := by
    unfold appendFile
    rw [hl]
    simp [loop, Loop.start]
  rw [appendAll, this]

/-! ### examples -/

/-- two files, one without words; words are letters -/
def exampleScratch : Env := ⟨fun f => if f = ['f'] then some [['a', 'b'], [], ['c']] else if f = ['e'] then some [[]] else none, fun _ => false, fun _ => true, fun t => t.length - 1, fun _ => true, fun _ => true, fun _ => true⟩

example : appendAll exampleScratch [['f'], ['e'], ['f']] = ([⟨[['a', 'b', '\n'], ['\n'], ['c', '\n']], [⟨0, 1⟩, ⟨2, 2⟩], some ⟨0, 2⟩⟩], 1) := by decide +kernel
example : Smooth exampleScratch ['f'] [['a', 'b'], [], ['c']] ∧ 0 < wordCount exampleScratch.words [['a', 'b'], [], ['c']] := by simp [Smooth, exampleScratch, wordCount]

end Verif.Props
