import Verif.Recipe.Model
/-
  Model of `src/dna.cc`: the file with the description of a warren, and the parameters in it; and of how warrens keep parameters.
-/
namespace Verif.Dna
open Verif.Recipe

/-- `src/dna.cc:13-14`: `# DO NOT EDIT DNA - DO NOT EDIT DNA - DO NOT EDIT DNA ` -/
def header : Str :=
  [0x23, 0x20] ++
  [0x44, 0x4F, 0x20, 0x4E, 0x4F, 0x54, 0x20, 0x45, 0x44, 0x49, 0x54, 0x20, 0x44, 0x4E, 0x41, 0x20, 0x2D, 0x20] ++
  [0x44, 0x4F, 0x20, 0x4E, 0x4F, 0x54, 0x20, 0x45, 0x44, 0x49, 0x54, 0x20, 0x44, 0x4E, 0x41, 0x20, 0x2D, 0x20] ++
  [0x44, 0x4F, 0x20, 0x4E, 0x4F, 0x54, 0x20, 0x45, 0x44, 0x49, 0x54, 0x20, 0x44, 0x4E, 0x41, 0x20]

/-- the file `dna`; `none`: it is not there or cannot be read -/
abbrev File := Option Str

/-- `src/dna.cc:32-33`: the lines that are left, each with a blank after it; the second argument is what there is of the current line.
(`std::getline` does not give an empty last line.) -/
def readLines : Str → Str → Str
  | [], [] => []
  | [], c :: line => (c :: line) ++ [0x20]
  | c :: s, line => if c = 0x0A then line ++ [0x20] ++ readLines s [] else readLines s (line ++ [c])

/-- `src/dna.cc:17-35` `read_dna` -/
def readDna : File → Option Str
  | none => none
  | some s =>
    if s.takeWhile (· ≠ 0x0A) = header then some (readLines ((s.dropWhile (· ≠ 0x0A)).drop 1) []) else none

/-- What happens to a file that is written and renamed: all is well; it cannot be created; or only its first `n` bytes are written; or it
is not renamed, because that fails or because the program ends before. -/
inductive Device
  | works
  | refuses
  | full (n : Nat)
  | stops

/-- `src/dna.cc:37-51` `write_dna`; neither what is written nor the renaming is looked at -/
def writeDna (dev : Device) (dna : Str) (file : File) : Bool × File :=
  match dev with
  | .works => (true, some (header ++ [0x0A] ++ dna))
  | .refuses => (false, file)
  | .full n => (true, some ((header ++ [0x0A] ++ dna).take n))
  | .stops => (true, file)

/-- `"parameters"` -/
def parametersKey : Str := [0x70, 0x61, 0x72, 0x61, 0x6D, 0x65, 0x74, 0x65, 0x72, 0x73]

/-- `src/dna.cc:53-76` `get_parameter_from_dna` -/
def getParameter (key : Str) (file : File) : Option Str :=
  match readDna file with
  | none => none
  | some dna =>
    match cook dna with
    | none => none
    | some settings =>
      match find parametersKey settings with
      | none => some []
      | some text =>
        match cook text with
        | none => none
        | some parameters => match find key parameters with
          | none => some []
          | some v => some v

/-- `src/dna.cc:81-94` of `set_parameter_in_dna`: the new description -/
def changedDna (key value : Str) (file : File) : Option Str :=
  match readDna file with
  | none => none
  | some dna =>
    match cook dna with
    | none => none
    | some settings =>
      match find parametersKey settings with
      | none => some (freeze (put parametersKey (freeze (put key value [])) settings))
      | some text =>
        match cook text with
        | none => none
        | some parameters => some (freeze (put parametersKey (freeze (put key value parameters)) settings))

/-- `src/dna.cc:78-98` `set_parameter_in_dna`; `SimpleWarren::set_parameter_` is this (`src/simple_warren.cc:142-146`) and
`SimpleWarren::get_parameter_` is `getParameter` (`148-151`) -/
def setParameter (dev : Device) (key value : Str) (file : File) : Bool × File :=
  match changedDna key value file with
  | none => (false, file)
  | some dna => writeDna dev dna file

/-- a setting other than a parameter, as `Warren::make` finds it (`src/warren.cc:128-136`) -/
def setting (key : Str) (file : File) : Option Str :=
  match readDna file with
  | none => none
  | some dna => match cook dna with
    | none => none
    | some settings => find key settings

/-! ### a warren of shards -/

/-- the file and `fluffle->parameters` -/
structure Big where
  file : File
  memory : Map

/-- `src/bigwig.cc:740-757` `Bigwig::set_parameter_` -/
def Big.set (dev : Device) (key value : Str) (b : Big) : Bool × Big :=
  match setParameter dev key value b.file with
  | (false, file) => (false, { b with file := file })
  | (true, file) => (true, ⟨file, put key value b.memory⟩)

/-- `src/bigwig.cc:759-775` `Bigwig::get_parameter_` -/
def Big.get (key : Str) (b : Big) : Str :=
  match find key b.memory with
  | none => []
  | some v => v

/-- `"container"` and `"stemmer"` -/
def containerKey : Str := [0x63, 0x6F, 0x6E, 0x74, 0x61, 0x69, 0x6E, 0x65, 0x72]
def stemmerKey : Str := [0x73, 0x74, 0x65, 0x6D, 0x6D, 0x65, 0x72]

/-- `src/bigwig.cc:598-601` (with `src/warren.h:72-77` and `82-88`): a stemmer and a container that were found are set again, whether
that succeeds or not -/
def Big.again (dev : Device) (key : Str) (found : Option Str) (b : Big) : Big :=
  match found with
  | none => b
  | some v => if v = [] then b else (b.set dev key v).2

/-- `src/bigwig.cc:463-466`, `511-533` and `598-601` of `Bigwig::make`: opening, as far as parameters go; all components can be made,
and the name of the stemmer is the one asked for -/
def openBig (dev dev' : Device) (file : File) : Option Big :=
  match readDna file with
  | none => none
  | some dna =>
    match cook dna with
    | none => none
    | some settings =>
      match find parametersKey settings with
      | none => some ⟨file, []⟩
      | some text =>
        match cook text with
        | none => none
        | some extra => some ((Big.again dev stemmerKey (find stemmerKey extra) ⟨file, extra⟩).again dev' containerKey (find containerKey extra))

end Verif.Dna
