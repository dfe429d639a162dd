/-
  Model of the commands apps/c4-build.cc, apps/treccast20-build.cc, apps/treccast22-build.cc and apps/jsonl.cc, which build an index from files that they are given.

  What a collection does with a file is C89, C90 and (for apps/jsonl.cc) C77: here it is only whether the file was read whole, in part though the answer is `true`, or refused.  Exceptions of the collections (C90) and
  messages are left out.
-/
namespace Verif.Builds

abbrev Text := List Char

/-- what reads a file -/
inductive Kind where
  | c4
  | marco
  | car
  | cast22
  | jsonl
deriving DecidableEq

/-- what came of it: all of it was added, only a part was but the answer is `true`, or the answer is `false` -/
inductive Read where
  | whole
  | cut
  | refused
deriving DecidableEq

/-- what the rest of the system does: make the directory and the builder, or the scribe; read a file; write the index -/
structure Env where
  mkdir : Text → Bool
  make : Text → Bool
  read : Kind → Text → Read
  finalize : Text → Bool

/-- what is there after a command: its status, the burrow it built in, the files that were added to it in order, and whether the index was written -/
structure Out where
  status : Int
  burrow : Option Text
  added : List (Kind × Text)
  written : Bool
deriving DecidableEq

def helpFlag : Text := ['-', '-', 'h', 'e', 'l', 'p']
def bFlag : Text := ['-', 'b']
def burrowFlag : Text := ['-', '-', 'b', 'u', 'r', 'r', 'o', 'w']
def simpleFlag : Text := ['-', '-', 's', 'i', 'm', 'p', 'l', 'e']
def bigwigFlag : Text := ['-', '-', 'b', 'i', 'g', 'w', 'i', 'g']

/-- src/dna.h 9: `the.burrow` -/
def defaultBurrow : Text := ['t', 'h', 'e', '.', 'b', 'u', 'r', 'r', 'o', 'w']

/-- jsonl.cc 52: `json.burrow` -/
def jsonBurrow : Text := ['j', 's', 'o', 'n', '.', 'b', 'u', 'r', 'r', 'o', 'w']

/-- c4-build.cc 17-22, treccast20-build.cc 17-22, treccast22-build.cc 18-23 -/
def burrowOf : List Text → Text × List Text
  | f :: b :: rest => if f = bFlag ∨ f = burrowFlag then (b, rest) else (defaultBurrow, f :: b :: rest)
  | args => (defaultBurrow, args)

/-- c4-build.cc 41-48, treccast20-build.cc 43-50, treccast22-build.cc 42-50, src/scribe.cc 317-355: the files that were added, and whether all were -/
def addAll (read : Kind → Text → Read) : List (Kind × Text) → List (Kind × Text) × Bool
  | [] => ([], true)
  | (k, f) :: fs => if read k f = .refused then ([], false) else ((k, f) :: (addAll read fs).1, (addAll read fs).2)

/-- c4-build.cc 27-54, treccast20-build.cc 30-55, treccast22-build.cc 28-55 -/
def build (env : Env) (burrow : Text) (files : List (Kind × Text)) : Out :=
  if env.mkdir burrow = false then ⟨-1, none, [], false⟩
  else if env.make burrow = false then ⟨-1, some burrow, [], false⟩
  else if (addAll env.read files).2 = false then ⟨-1, some burrow, (addAll env.read files).1, false⟩
  else if env.finalize burrow = false then ⟨-1, some burrow, (addAll env.read files).1, false⟩
  else ⟨0, some burrow, (addAll env.read files).1, true⟩

/-- a command that did nothing -/
def nothing (status : Int) : Out := ⟨status, none, [], false⟩

/-- c4-build.cc 10-55 (`k` is `c4`), treccast22-build.cc 11-56 (`k` is `cast22`) -/
def buildFiles (k : Kind) (env : Env) (args : List Text) : Out :=
  if args = [helpFlag] then nothing 0
  else if (burrowOf args).2 = [] then nothing 1
  else build env (burrowOf args).1 ((burrowOf args).2.map fun f => (k, f))

/-- treccast20-build.cc 10-56 -/
def buildCast20 (env : Env) (args : List Text) : Out :=
  if args = [helpFlag] then nothing 0
  else match burrowOf args with
    | (b, [m, c]) => build env b [(.marco, m), (.car, c)]
    | _ => nothing 1

/-- jsonl.cc 43-51: simple or not, and the rest -/
def flagOf : List Text → Bool × List Text
  | [] => (true, [])
  | f :: fs => if f = simpleFlag then (true, fs) else if f = bigwigFlag then (false, fs) else (true, f :: fs)

/-- jsonl.cc 35-72.  `simple` and `bigwig` are what the system does for the one and the other sort of index (11-33); for the second there is no directory to make before. -/
def buildJsonl (simple bigwig : Env) (args : List Text) : Out :=
  if args = [helpFlag] then nothing 0
  else if args = [] then nothing 0
  else
    let env := if (flagOf args).1 then simple else bigwig
    let files := (flagOf args).2.map fun f => (Kind.jsonl, f)
    if ((flagOf args).1 && !env.mkdir jsonBurrow) = true then nothing 1
    else if env.make jsonBurrow = false then ⟨1, some jsonBurrow, [], false⟩
    else if (addAll env.read files).2 = false then ⟨1, some jsonBurrow, (addAll env.read files).1, false⟩
    else ⟨0, some jsonBurrow, (addAll env.read files).1, env.finalize jsonBurrow⟩

/-! ### specification -/

/-- what a user asks for, as the usage has it: a burrow, or the default one, and files -/
structure Request where
  burrow : Option Text
  files : List Text

/-- how the usage writes it -/
def Request.args (r : Request) : List Text :=
  match r.burrow with
  | none => r.files
  | some b => burrowFlag :: b :: r.files

/-- the burrow meant -/
def Request.place (r : Request) : Text := r.burrow.getD defaultBurrow

/-- no file is named like an option -/
def Request.Plain (r : Request) : Prop := r.files ≠ [] ∧ ∀ f ∈ r.files, f ≠ helpFlag ∧ f ≠ bFlag ∧ f ≠ burrowFlag

/-- all that is needed for a build to succeed -/
def Able (env : Env) (burrow : Text) (files : List (Kind × Text)) : Prop :=
  env.mkdir burrow = true ∧ env.make burrow = true ∧ (∀ kf ∈ files, env.read kf.1 kf.2 ≠ .refused) ∧ env.finalize burrow = true

end Verif.Builds
