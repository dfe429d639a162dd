/-
  Model of apps/simple.cc and apps/walk.cc, the command that builds an index from files, and of the arguments of apps/forage.cc, the command that annotates a meadow.

  A filesystem is what is at a name: links count as what they lead to, and a directory is the list of what is in it, in the order of the iterator.  What the collections and the
  builder do with a file is C75, C89 and C90; here it is only whether they could.
-/
namespace Verif.BuildTool

abbrev Text := List Char

/-! ### files -/

mutual
/-- what is at a name: a file, a directory, a directory that cannot be read (an exception), or something else or nothing -/
inductive Node where
  | file
  | dir (entries : Entries)
  | locked
  | other
inductive Entries where
  | nil
  | cons (name : Text) (node : Node) (rest : Entries)
end

/-- boost: the path of an entry of a directory -/
def join (p name : Text) : Text := if p.getLast? = some '/' then p ++ name else p ++ '/' :: name

/-- `std::regex_constants::icase`, in the locale of C -/
def lower (c : Char) : Char := c.toLower

def readme : Text := ['r', 'e', 'a', 'd', 'm', 'e']

/-- walk.cc 15-16: `std::regex_search` -/
def mentions : Text → Bool
  | [] => false
  | c :: t => readme.isPrefixOf ((c :: t).map lower) || mentions t

mutual
/-- walk.cc 13-28: the files that are added; nothing when there is an exception.  (24-27: what is neither file nor directory is passed over.) -/
def walkNode (p : Text) : Node → Option (List Text)
  | .file => some (if mentions p then [] else [p])
  | .dir es => walkEntries p es
  | .locked => none
  | .other => some []
/-- walk.cc 22-27 -/
def walkEntries (p : Text) : Entries → Option (List Text)
  | .nil => some []
  | .cons name n rest =>
    match walkNode (join p name) n with
    | none => none
    | some a =>
      match walkEntries p rest with
      | none => none
      | some b => some (a ++ b)
end

/-- walk.cc 31-46 -/
def walk (fs : Text → Node) (p : Text) : Option (List Text) :=
  match fs p with
  | .other => none
  | n => walkNode p n

/-- simple.cc 113-118 -/
def walkAll (fs : Text → Node) : List Text → Option (List Text)
  | [] => some []
  | p :: ps =>
    match walk fs p with
    | none => none
    | some a =>
      match walkAll fs ps with
      | none => none
      | some b => some (a ++ b)

/-! ### arguments of the build -/

inductive Kind where
  | trec
  | json
  | marco
  | marco2
  deriving DecidableEq

def filesFlag : Text := ['-', '-', 'f', 'i', 'l', 'e', 's']

/-- simple.cc 93-99 -/
def kindOf (arg : Text) : Option Kind :=
  if arg = ['-', '-', 'j', 's', 'o', 'n'] then some .json
  else if arg = ['-', '-', 'm', 'a', 'r', 'c', 'o'] then some .marco
  else if arg = ['-', '-', 'm', 'a', 'r', 'c', 'o', '2'] then some .marco2
  else if arg = ['-', '-', 't', 'r', 'e', 'c'] then some .trec
  else none

/-- simple.cc 80-82: the options, and the arguments from the first with a dash on -/
def takeOptions : List Text → Text × List Text
  | [] => ([], [])
  | a :: as => if a.head? = some '-' then ([], a :: as) else (' ' :: (a ++ (takeOptions as).1), (takeOptions as).2)

/-- simple.cc 80-118, without the name of the program: the options, the kind of the collection and the names of files; nothing when the usage is shown -/
def parseBuild (args : List Text) : Option (Text × Kind × List Text) :=
  let (options, rest) := takeOptions args
  if rest.length < 2 then none
  else
    match rest with
    | [] => none
    | a :: as =>
      if a = filesFlag then some (options, .trec, as)
      else
        match kindOf a with
        | none => none
        | some k =>
          match as with
          | [] => none
          | b :: files => if b ≠ filesFlag ∨ files = [] then none else some (options, k, files)

/-! ### building -/

/-- what the steps of a build come to -/
structure World where
  fs : Text → Node
  /-- `Working::mkdir` -/
  mkdir : Bool
  /-- `SimpleBuilder::make` with these options -/
  maker : Text → Bool
  /-- the file can be added -/
  add : Text → Bool
  /-- `finalize` -/
  finalize : Bool

/-- whether the program ends with 0 (and says `Done.`), and the files in the index, when there is one -/
structure Outcome where
  ok : Bool
  index : Option (List Text)
  deriving DecidableEq

def failed : Outcome := ⟨false, none⟩

/-- simple.cc 17-22, 35-44, 53-64; src/builder.cc 157-170: a builder is made, the files are added in turn, and the index is finalized -/
def buildAll (w : World) (options : Text) (text : List Text) : Outcome :=
  if w.maker options && text.all w.add && w.finalize then ⟨true, some text⟩ else failed

def noxml : Text := [' ', 't', 'o', 'k', 'e', 'n', 'i', 'z', 'e', 'r', ':', 'n', 'o', 'x', 'm', 'l']

/-- simple.cc 14-71, 128-148 -/
def build (w : World) (options : Text) (k : Kind) (text : List Text) : Outcome :=
  match k with
  | .json => failed
  | .marco => if text.length = 0 then ⟨true, none⟩ else if text.length > 1 then failed else buildAll w (options ++ noxml) text
  | .marco2 => if text.length = 0 then ⟨true, none⟩ else buildAll w (options ++ noxml) text
  | .trec => buildAll w options text

/-- simple.cc 74-152 -/
def main (w : World) (args : List Text) : Outcome :=
  match parseBuild args with
  | none => failed
  | some (options, k, files) =>
    match walkAll w.fs files with
    | none => failed
    | some text => if w.mkdir then build w options k text else failed

/-! ### arguments of the annotation -/

def dashes : Text := ['-', '-']
def meadowKey : Text := ['m', 'e', 'a', 'd', 'o', 'w']

/-- the arguments of `forage`: the name of the meadow (empty: the default), the parameters in the order in which they were set, and what is left -/
structure Forage where
  meadow : Text
  parameters : List (Text × Text)
  rest : List Text
  deriving DecidableEq

/-- forage.cc 64-68 -/
def setKey (f : Forage) (key value : Text) : Forage := if key = meadowKey then { f with meadow := value } else { f with parameters := f.parameters ++ [(key, value)] }

/-- forage.cc 36-69; nothing when the usage is shown -/
def forageOptions (f : Forage) : List Text → Option Forage
  | [] => some f
  | a :: as =>
    if dashes.isPrefixOf a then
      if '=' ∈ a then forageOptions (setKey f ((a.takeWhile (· != '=')).drop 2) ((a.dropWhile (· != '=')).drop 1)) as
      else
        match as with
        | [] => none
        | v :: bs => forageOptions (setKey f (a.drop 2) v) bs
    else some { f with rest := a :: as }

/-- forage.cc 32-84 (of one argument or more, and not `--help` alone): nothing when the usage is shown -/
def parseForage (args : List Text) : Option Forage :=
  match forageOptions ⟨[], [], []⟩ args with
  | none => none
  | some f => if f.rest.length < 1 ∨ f.rest.length > 3 then none else some f

/-- `parameters[key]` in the end -/
def parameter (f : Forage) (key : Text) : Option Text := (f.parameters.reverse.find? fun x => x.1 == key).map (·.2)

/-! ### specification -/

inductive Entries.Has : Entries → Text → Node → Prop where
  | here (name : Text) (n : Node) (rest : Entries) : Has (.cons name n rest) name n
  | there (name' : Text) (n' : Node) (rest : Entries) (name : Text) (n : Node) : Has rest name n → Has (.cons name' n' rest) name n

/-- `q` is the path of a file at or below what is at `p` -/
inductive FileBelow : Text → Node → Text → Prop where
  | here (p : Text) : FileBelow p .file p
  | inside (p : Text) (es : Entries) (name : Text) (n : Node) (q : Text) : es.Has name n → FileBelow (join p name) n q → FileBelow p (.dir es) q

/-- there is a directory that cannot be read -/
inductive LockedBelow : Node → Prop where
  | here : LockedBelow .locked
  | inside (es : Entries) (name : Text) (n : Node) : es.Has name n → LockedBelow n → LockedBelow (.dir es)

/-- the word is somewhere in a text, in small or capital letters -/
def MentionsReadme (p : Text) : Prop := ∃ a b c, p = a ++ b ++ c ∧ b.map Char.toLower = ['r', 'e', 'a', 'd', 'm', 'e']

/-- an option as it is written: with `=` or as two arguments -/
structure Setting where
  key : Text
  value : Text
  equals : Bool

def Setting.args (o : Setting) : List Text := if o.equals then ['-' :: '-' :: (o.key ++ '=' :: o.value)] else ['-' :: '-' :: o.key, o.value]

/-- the last value that a key was given -/
def lastValue (os : List Setting) (key : Text) : Option Text := ((os.filter fun o => o.key == key).getLast?).map (·.value)

end Verif.BuildTool
