import Verif.Inhale.Model
/-
  Model of a burrow's directory: `Working` (src/working.h 77-163, src/working.cc 341-371), the shell commands it
  runs, its temporary names, its listings, and the scripts of `commit_all` (src/bigwig.cc 349-381, 1364-1408 and
  src/fiver.cc 461-471, 640-651, 703-721).

  Names and texts are lists of bytes.  A path names a file as it is written: links, "." and "..", and repeated or
  trailing slashes, are not resolved.  Permissions, full disks and failing calls are left out.
-/
namespace Verif.Working

open Verif.Inhale (Bytes cstr plain shellQuote)

/-! ### Files -/

/-- What a path names: a file, with what is in it and whether it may be executed, or a directory. -/
inductive Node where
  | file (content : Bytes) (executable : Bool)
  | dir
deriving DecidableEq, Repr

/-- All files and directories, by their paths. -/
abbrev FS := Bytes → Option Node

/-- something is put at a path, or taken away -/
def put (fs : FS) (p : Bytes) (n : Option Node) : FS := fun q => if q = p then n else fs q

/-! ### The shell that `system` runs

POSIX.1-2017, volume "Shell & Utilities", 2.2, 2.3, 2.6.6 and 2.7, for lists of simple commands that are words with
single quotes and backslashes, a star at the end of a word, comments, and a redirection of the error output; anything
else is `none` here, and can do anything. -/

/-- a word: its bytes, where `none` is a star outside of quotes -/
abbrev Word := List (Option UInt8)

/-- between words; in a word; after a backslash; between single quotes; in the target of `2>`; in a comment -/
inductive Mode where
  | blank
  | bare
  | escape
  | single
  | target
  | comment
deriving DecidableEq, Repr

/-- a word ends before this text -/
def ends : Bytes → Bool
  | [] => true
  | c :: _ => c = 32 || c = 9 || c = 59 || c = 10

/-- Commands, as lists of words, from the mode, the word begun, the words before it in the command, and the text. -/
def parse : Mode → Word → List Word → Bytes → Option (List (List Word))
  | .blank, _, ws, [] => some (if ws = [] then [] else [ws])
  | .bare, cur, ws, [] => some [ws ++ [cur]]
  | .target, _, ws, [] => some [ws]
  | .comment, _, ws, [] => some (if ws = [] then [] else [ws])
  | .escape, _, _, [] => none
  | .single, _, _, [] => none
  | .blank, _, ws, c :: s =>
    if c = 32 ∨ c = 9 then parse .blank [] ws s
    else if c = 39 then parse .single [] ws s
    else if c = 35 then parse .comment [] ws s
    else if c = 10 ∧ ws = [] then parse .blank [] [] s
    else if c = 59 ∧ ws = [] then none
    else if c = 10 ∨ c = 59 then (parse .blank [] [] s).map (ws :: ·)
    else if plain c then parse .bare [some c] ws s
    else none
  | .bare, cur, ws, c :: s =>
    if c = 32 ∨ c = 9 then parse .blank [] (ws ++ [cur]) s
    else if c = 39 then parse .single cur ws s
    else if c = 92 then parse .escape cur ws s
    else if c = 10 ∨ c = 59 then (parse .blank [] [] s).map ((ws ++ [cur]) :: ·)
    else if c = 62 then if cur = [some 50] ∧ ws ≠ [] then parse .target [] ws s else none
    else if c = 42 then
      if ends s ∧ cur.getLast? ≠ some (some 47) then parse .bare (cur ++ [none]) ws s else none
    else if plain c then parse .bare (cur ++ [some c]) ws s
    else none
  | .escape, cur, ws, c :: s => if c = 10 then none else parse .bare (cur ++ [some c]) ws s
  | .single, cur, ws, c :: s => if c = 39 then parse .bare cur ws s else parse .single (cur ++ [some c]) ws s
  | .target, _, ws, c :: s =>
    if c = 32 ∨ c = 9 then parse .blank [] ws s
    else if c = 10 ∨ c = 59 then (parse .blank [] [] s).map (ws :: ·)
    else if plain c then parse .target [] ws s
    else none
  | .comment, _, ws, c :: s =>
    if c = 10 then if ws = [] then parse .blank [] [] s else (parse .blank [] [] s).map (ws :: ·)
    else parse .comment [] ws s

/-- the bytes of a word without stars -/
def literal : Word → Option Bytes
  | [] => some []
  | none :: _ => none
  | some c :: w => (literal w).map (c :: ·)

/-- The word stands for the path: byte by byte, where a star stands for any bytes but slashes (2.13; the star is at
the end of its word and not at the beginning of a name, so that no rule about leading dots applies). -/
def names : Word → Bytes → Bool
  | [], p => p.isEmpty
  | none :: _, p => p.all (· ≠ 47)
  | some _ :: _, [] => false
  | some c :: w, d :: p => c = d && names w p

/-- the word could be taken for an option, or is empty -/
def dubious (w : Word) : Bool := w.isEmpty || w.head? = some (some 45)

/-- `rm -f`: the files the words stand for are no more; directories are left (and then `rm` fails) -/
def rm (args : List Word) (fs : FS) : FS := fun p =>
  match fs p with
  | some (.file b x) => if args.any (names · p) then none else some (.file b x)
  | other => other

/-- the directories on the way to a path, from the text before and the text to come, and the path itself -/
def onTheWay : Bytes → Bytes → List Bytes
  | before, [] => [before]
  | before, c :: s => if c = 47 ∧ before ≠ [] then before :: onTheWay (before ++ [c]) s else onTheWay (before ++ [c]) s

def isFile : Option Node → Bool
  | some (.file _ _) => true
  | _ => false

/-- `mkdir -p`, for one path: if a file is in the way nothing is made -/
def mkdirs (p : Bytes) (fs : FS) : FS :=
  if (onTheWay [] p).any fun q => isFile (fs q) then fs
  else fun q => if q ∈ onTheWay [] p then some .dir else fs q

/-- "/bin/rm", "rm", "-f", "/bin/mkdir", "-p", "mv", "-n" -/
def binRm : Bytes := [0x2F, 0x62, 0x69, 0x6E, 0x2F, 0x72, 0x6D] /- /bin/rm -/
def rmName : Bytes := [0x72, 0x6D] /- rm -/
def dashF : Bytes := [0x2D, 0x66] /- -f -/
def binMkdir : Bytes := [0x2F, 0x62, 0x69, 0x6E, 0x2F, 0x6D, 0x6B, 0x64, 0x69, 0x72] /- /bin/mkdir -/
def dashP : Bytes := [0x2D, 0x70] /- -p -/
def mvName : Bytes := [0x6D, 0x76] /- mv -/
def dashN : Bytes := [0x2D, 0x6E] /- -n -/

/-- a word written plainly -/
def lit (s : Bytes) : Word := s.map some

/-- `mkdir -p`, for each word -/
def mkdirAll : List Word → FS → Option FS
  | [], fs => some fs
  | w :: ws, fs =>
    match literal w with
    | some p => mkdirAll ws (mkdirs p fs)
    | none => none

/-- `mv -n a b` for a file: it gets the other name, unless there is something of that name -/
def mv (a b : Bytes) (fs : FS) : Option FS :=
  match fs a, fs b with
  | none, _ => some fs
  | some .dir, _ => none
  | some (.file _ _), some .dir => none
  | some (.file _ _), some (.file _ _) => some fs
  | some (.file c x), none => some (put (put fs b (some (.file c x))) a none)

/-- One simple command: what it does to the files (POSIX "Utilities": `rm -f`, `mkdir -p`; GNU `mv -n`). -/
def command (c : List Word) (fs : FS) : Option FS :=
  match c with
  | name :: option :: args =>
    if args.any dubious then none
    else if (name = lit binRm ∨ name = lit rmName) ∧ option = lit dashF then some (rm args fs)
    else if name = lit binMkdir ∧ option = lit dashP then mkdirAll args fs
    else if name = lit mvName ∧ option = lit dashN then
      match args with
      | [a, b] =>
        match literal a, literal b with
        | some a, some b => mv a b fs
        | _, _ => none
      | _ => none
    else none
  | _ => none

/-- commands one after the other -/
def commands : List (List Word) → FS → Option FS
  | [], fs => some fs
  | c :: cs, fs => (command c fs).bind (commands cs)

/-- the shell reads and carries out a text -/
def shell (text : Bytes) (fs : FS) : Option FS :=
  match parse .blank [] [] text with
  | none => none
  | some cs => commands cs fs

/-- `system(text.c_str())` -/
def system (text : Bytes) (fs : FS) : Option FS := shell (cstr text) fs

/-- "#!/bin/sh\n" -/
def sheBang : Bytes := [0x23, 0x21, 0x2F, 0x62, 0x69, 0x6E, 0x2F, 0x73, 0x68] /- #!/bin/sh -/ ++ [10]

/-- `system` for one word that is a path of a file to be executed (2.9.1.1: a name with a slash is not looked up).  A
text that begins with "#!/bin/sh" is read by the shell; other files are not modelled.  The second result is whether
`system` returns 0: without such a file, or without the right to execute it, it does not. -/
def execute (text : Bytes) (fs : FS) : Option (FS × Bool) :=
  match parse .blank [] [] (cstr text) with
  | some [[w]] =>
    match literal w with
    | some path =>
      if 47 ∈ path then
        match fs path with
        | some (.file content true) =>
          if content.take sheBang.length = sheBang then (shell content fs).map (·, true) else none
        | _ => some (fs, false)
      else none
    | none => none
  | _ => none

/-! ### `Working` -/

/-- src/working.h 106-108 `make_name` -/
def makeName (dir name : Bytes) : Bytes := dir ++ 47 :: name

/-- src/working.h 96-105: the constructor; the names in the commands are not quoted -/
def construct (dir : Bytes) (mkdir : Bool) (fs : FS) : Option FS :=
  (if mkdir then system ([0x2F, 0x62, 0x69, 0x6E, 0x2F, 0x6D, 0x6B, 0x64, 0x69, 0x72, 0x20, 0x2D, 0x70, 0x20] /- /bin/mkdir -p -/ ++ dir) fs else some fs).bind
    (system ([0x2F, 0x62, 0x69, 0x6E, 0x2F, 0x72, 0x6D, 0x20, 0x2D, 0x66, 0x20] /- /bin/rm -f -/ ++ dir ++ [0x2F, 0x74, 0x65, 0x6D, 0x70, 0x2E, 0x2A] /- /temp.* -/))

/-- decimal digits, the way `<<` writes them; with enough fuel -/
def digits : Nat → Nat → Bytes
  | 0, _ => []
  | fuel + 1, n => if n < 10 then [UInt8.ofNat (48 + n)] else digits fuel (n / 10) ++ [UInt8.ofNat (48 + n % 10)]

/-- src/working.h 112-114: at least eight characters, filled with '0' -/
def padded (n : Nat) : Bytes :=
  let d := digits (n + 1) n
  List.replicate (8 - d.length) 48 ++ d

/-- src/working.h 109-123 `make_temp`, under the lock: the name, and the counter afterwards (`unsigned`, working.h
162) -/
def makeTemp (dir extension : Bytes) (counter : Nat) : Bytes × Nat :=
  (makeName dir ([0x74, 0x65, 0x6D, 0x70, 0x2E] /- temp. -/ ++ padded counter ++ (if extension = [] then [] else 46 :: extension)),
   (counter + 1) % 4294967296)

/-- the names of one object, in the order in which they are asked for, by their extensions -/
def temps (dir : Bytes) : Nat → List Bytes → List Bytes
  | _, [] => []
  | counter, e :: es => (makeTemp dir e counter).1 :: temps dir (makeTemp dir e counter).2 es

/-- one line by `fgets` with room for so many bytes: up to a newline, which is kept -/
def fgets : Nat → Bytes → Bytes × Bytes
  | 0, s => ([], s)
  | _ + 1, [] => ([], [])
  | room + 1, c :: s =>
    if c = 10 then ([c], s)
    else (c :: (fgets room s).1, (fgets room s).2)

/-- a text that begins with the prefix: `regex_search` for "^prefix\.*", for a prefix of plain bytes -/
def beginsWith (pre line : Bytes) : Bool := line.take pre.length == pre

/-- src/working.cc 358-368: lines are read into 256 bytes, of which one is for the NUL; with enough fuel -/
def lsLoop (pre : Bytes) : Nat → Bytes → List Bytes
  | 0, _ => []
  | fuel + 1, out =>
    match out with
    | [] => []
    | c :: s =>
      let r := fgets 255 (c :: s)
      if beginsWith pre r.1 then r.1.takeWhile (· ≠ 10) :: lsLoop pre fuel r.2 else lsLoop pre fuel r.2

/-- src/working.cc 341-371 `Working::ls`, from what the command prints -/
def ls (pre printed : Bytes) : List Bytes := lsLoop pre printed.length printed

/-- what `ls` prints into a pipe: a name on each line -/
def printed (listing : List Bytes) : Bytes := listing.flatMap fun n => n ++ [10]

/-- src/working.cc 342-354: what the shell makes of the command; the name is not quoted -/
def lsCommand (dir : Bytes) : Option (List (List Word)) := parse .blank [] [] (cstr ([0x2F, 0x75, 0x73, 0x72, 0x2F, 0x62, 0x69, 0x6E, 0x2F, 0x6C, 0x73, 0x20] /- /usr/bin/ls -/ ++ dir))

/-- src/working.h 124-132 `remove`: what is left -/
def remove (dir name : Bytes) (fs : FS) : FS := put fs (makeName dir name) none

/-! ### Scripts of `commit_all` -/

/-- src/fiver.cc 640-651 `commit_command`, for a file that is there and otherwise (`make fast` compiles the assertion
away) -/
def commitCommand (fs : FS) (ready final : Bytes) : Bytes :=
  if (fs ready).isNone then []
  else [0x6D, 0x76, 0x20, 0x2D, 0x6E, 0x20] /- mv -n -/ ++ shellQuote ready ++ [0x20] ++ shellQuote final ++ [0x20, 0x32, 0x3E, 0x2F, 0x64, 0x65, 0x76, 0x2F, 0x6E, 0x75, 0x6C, 0x6C, 0x3B, 0x20, 0x72, 0x6D, 0x20, 0x2D, 0x66, 0x20] /- 2>/dev/null; rm -f -/ ++ shellQuote ready

/-- src/bigwig.cc 1379-1385: the lines; a line that ends in a newline gets no other -/
def scriptLines (fs : FS) : List (Bytes × Bytes) → Bytes
  | [] => []
  | (ready, final) :: rest =>
    let line := commitCommand fs ready final
    line ++ (if line = [] ∨ line.getLast? ≠ some 10 then [10] else []) ++ scriptLines fs rest

/-- src/bigwig.cc 1377-1385: what is written -/
def script (fs : FS) (pairs : List (Bytes × Bytes)) : Bytes := sheBang ++ scriptLines fs pairs

/-- src/bigwig.cc 361-364 `is_commit_script` -/
def isCommitScript (name : Bytes) : Bool :=
  decide (name.length > 10) && (name.take 7 == [0x63, 0x6F, 0x6D, 0x6D, 0x69, 0x74, 0x2E] /- commit. -/) && (name.drop (name.length - 3) == [0x2E, 0x73, 0x68] /- .sh -/)

/-- src/bigwig.cc 366-381 `finalize_commits`, over what was listed: the files and whether it succeeded -/
def finalizeCommits (dir : Bytes) : List Bytes → FS → Option (FS × Bool)
  | [], fs => some (fs, true)
  | n :: ns, fs =>
    if isCommitScript n then
      match execute (shellQuote (makeName dir n)) fs with
      | none => none
      | some (fs', false) => some (fs', false)
      | some (fs', true) => finalizeCommits dir ns (remove dir n fs')
    else finalizeCommits dir ns fs

/-- src/bigwig.cc 366-369, when a burrow is opened: scripts are looked for in a listing of the directory -/
def recover (dir : Bytes) (listing : List Bytes) (fs : FS) : Option (FS × Bool) :=
  finalizeCommits dir (ls [0x63, 0x6F, 0x6D, 0x6D, 0x69, 0x74] /- commit -/ (printed listing)) fs

/-- src/fiver.cc 644-645: the names before and after a commit, from the sequence numbers as they are written; the name
of a shard is "kitten" until it is committed -/
def pairOf (dir recipe : Bytes) : Bytes × Bytes :=
  (makeName dir ([0x6B, 0x69, 0x74, 0x74, 0x65, 0x6E, 0x2E] /- kitten. -/ ++ recipe), makeName dir ([0x66, 0x69, 0x76, 0x65, 0x72, 0x2E] /- fiver. -/ ++ recipe))

/-- src/fiver.cc 714-720, with assertions: the link and the removal of `commit_` -/
def commitSteps (pair : Bytes × Bytes) : List (FS → FS) :=
  [fun fs => put fs pair.2 (fs pair.1), fun fs => put fs pair.1 none]

/-- src/bigwig.cc 1373-1406: what `commit_all` does to the files, step by step.  `commit_name` is "commit.", a pointer
and ".sh"; the script is written in two parts, of which the first is any part of it. -/
def commitAllSteps (fs₀ : FS) (dir temp commitName : Bytes) (pairs : List (Bytes × Bytes)) (part : Nat) :
    List (FS → FS) :=
  [fun fs => put fs temp (some (.file ((script fs₀ pairs).take part) false)),
   fun fs => put fs temp (some (.file (script fs₀ pairs) false)),
   fun fs => put fs temp (some (.file (script fs₀ pairs) true)),
   fun fs => put fs (makeName dir commitName) (fs temp),
   fun fs => put fs temp none] ++
  pairs.flatMap commitSteps ++
  [fun fs => remove dir commitName fs]

/-- the files after the first steps -/
def after : List (FS → FS) → FS → FS
  | [], fs => fs
  | f :: l, fs => after l (f fs)

end Verif.Working
