/-
  Model of apps/scratch.cc, the command that adds text files to a changing index, each in a transaction of its own.

  Addresses are those of a transaction, from 0 (they are moved when it is committed: C19).  How many words the tokenizer finds in a line is a function.  A file is its lines, as `getline` gives them.
-/
namespace Verif.Scratch

abbrev Text := List Char

structure Mark where
  p : Int
  q : Int
deriving DecidableEq

/-- what the rest of the system does: the lines of a file that can be opened, whether reading it ended with an error, whether a transaction begins, the number of words in a line, and whether appending, annotating and
making ready succeed -/
structure Env where
  lines : Text → Option (List Text)
  bad : Text → Bool
  transaction : Text → Bool
  words : Text → Nat
  append : Text → Bool
  annotate : Mark → Bool
  ready : Text → Bool

/-- what a transaction has in it -/
structure Staged where
  texts : List Text
  lines : List Mark
  file : Option Mark
deriving DecidableEq

/-- the state of the loop: where the next word will be, what is staged, `file_p` and `file_q`, `have_tokens` -/
structure Loop where
  next : Int
  texts : List Text
  marks : List Mark
  fileP : Int
  fileQ : Int
  haveTokens : Bool
deriving DecidableEq

/-- src/core.h 17 -/
def maxfinity : Int := 2 ^ 63 - 1

/-- scratch.cc 34-36: before the first line (`minfinity` is the least address: src/core.h 18) -/
def Loop.start : Loop := ⟨0, [], [], maxfinity, -2 ^ 63, false⟩

/-- scratch.cc 40-53: a line; nothing when the transaction is aborted.  The text of `n` words at `p` is from `p` to `p + n - 1`. -/
def step (env : Env) (s : Loop) (line : Text) : Option Loop :=
  let text := line ++ ['\n']
  if env.append text = false then none
  else
    let p := s.next
    let q := s.next + (env.words text : Int) - 1
    if p ≤ q then
      if env.annotate ⟨p, q⟩ = false then none
      else some ⟨q + 1, s.texts ++ [text], s.marks ++ [⟨p, q⟩], min s.fileP p, max s.fileQ q, true⟩
    else some { s with texts := s.texts ++ [text] }

/-- scratch.cc 39-54 -/
def loop (env : Env) : Loop → List Text → Option Loop
  | s, [] => some s
  | s, l :: ls => match step env s l with
    | none => none
    | some s' => loop env s' ls

/-- scratch.cc 21-77: what is committed for a file; nothing when it fails -/
def appendFile (env : Env) (name : Text) : Option Staged :=
  match env.lines name with
  | none => none
  | some ls =>
    if env.transaction name = false then none
    else match loop env .start ls with
      | none => none
      | some s =>
        if env.bad name then none
        else if s.haveTokens = false then none
        else if env.annotate ⟨s.fileP, s.fileQ⟩ = false then none
        else if env.ready name = false then none
        else some ⟨s.texts, s.marks, some ⟨s.fileP, s.fileQ⟩⟩

/-- scratch.cc 118-123: what is committed for files, and the status -/
def appendAll (env : Env) : List Text → List Staged × Int
  | [] => ([], 0)
  | f :: fs => match appendFile env f with
    | none => ([], 1)
    | some s => (s :: (appendAll env fs).1, (appendAll env fs).2)

def bFlag : Text := ['-', 'b']
def burrowFlag : Text := ['-', '-', 'b', 'u', 'r', 'r', 'o', 'w']
def helpFlag : Text := ['-', '-', 'h', 'e', 'l', 'p']

/-- scratch.cc 12: `scratch.burrow` -/
def defaultBurrow : Text := ['s', 'c', 'r', 'a', 't', 'c', 'h', '.', 'b', 'u', 'r', 'r', 'o', 'w']

/-- scratch.cc 88-98, 105-107: the burrow and the files.  An option needs a name after it, and is a file otherwise. -/
def options : Text → List Text → Text × List Text
  | burrow, f :: b :: rest => if f = bFlag ∨ f = burrowFlag then options b rest else (burrow, f :: b :: rest)
  | burrow, args => (burrow, args)

/-- scratch.cc 81-128: what is committed in which burrow, and the status; `make` is whether the index can be made or opened -/
def command (make : Text → Bool) (env : Env) (args : List Text) : Option (Text × List Staged) × Int :=
  if args = [helpFlag] then (none, 0)
  else if (options defaultBurrow args).2 = [] then (none, 1)
  else if make (options defaultBurrow args).1 = false then (none, 1)
  else (some ((options defaultBurrow args).1, (appendAll env (options defaultBurrow args).2).1), (appendAll env (options defaultBurrow args).2).2)

/-! ### specification -/

/-- the number of words in lines -/
def wordCount (words : Text → Nat) (ls : List Text) : Nat := (ls.map fun l => words (l ++ ['\n'])).sum

/-- the marks for lines when there are `n` words before: each line that has words from its first to its last -/
def lineMarks (words : Text → Nat) : Nat → List Text → List Mark
  | _, [] => []
  | n, l :: ls => (if words (l ++ ['\n']) = 0 then [] else [⟨n, n + words (l ++ ['\n']) - 1⟩]) ++ lineMarks words (n + words (l ++ ['\n'])) ls

/-- nothing fails for a file with these lines -/
def Smooth (env : Env) (name : Text) (ls : List Text) : Prop :=
  env.transaction name = true ∧ env.bad name = false ∧ env.ready name = true ∧ (∀ l ∈ ls, env.append (l ++ ['\n']) = true) ∧ (∀ m ∈ lineMarks env.words 0 ls, env.annotate m = true) ∧
    env.annotate ⟨0, (wordCount env.words ls : Int) - 1⟩ = true

end Verif.Scratch
