import Verif.Text.Fiver
/-
  Model of what `append_tsv` (`meadowlark/meadowlark.cc`) makes of the lines of a file, and of how a file is cut into
  lines and a line into fields (`src/core.cc`).
-/
namespace Verif.Tsv
open Verif.Text Verif.Hopper

/-- `src/core.cc:91-117` `split_lines`; `cur` is the text from `line_start` to `p` -/
def splitLines : Text → Text → List Text
  | cur, [] => if cur ≠ [] then [cur] else []
  | cur, 0x0D :: 0x0A :: s => cur :: splitLines [] s
  | cur, c :: s => if c = 0x0A ∨ c = 0x0D then cur :: splitLines [] s else splitLines (cur ++ [c]) s

/-- `std::string::find`, from the start of the text -/
def find (sep : Text) : Text → Option Nat
  | [] => if sep = [] then some 0 else none
  | c :: s => if sep.isPrefixOf (c :: s) then some 0 else (find sep s).map (· + 1)

/-- `src/core.cc:76-86`; every round passes over the separator, which is not empty, so that the length of the text
bounds them -/
def splitSep (sep : Text) : Nat → Text → List Text
  | 0, _ => []
  | fuel + 1, s => match find sep s with
    | none => [s]
    | some k => s.take k :: splitSep sep fuel (s.drop (k + sep.length))

/-- `std::isspace`, in the "C" locale -/
def isSpace (c : UInt8) : Bool := c == 0x20 || (0x09 ≤ c && c ≤ 0x0D)

/-- `src/core.cc:62-74` -/
def splitBlank : Nat → Text → List Text
  | 0, _ => []
  | fuel + 1, s =>
    match s.dropWhile isSpace with
    | [] => []
    | c :: s => (c :: s).takeWhile (fun c => !isSpace c) :: splitBlank fuel ((c :: s).dropWhile fun c => !isSpace c)

/-- `src/core.cc:57-89` `split_tsv` -/
def splitTsv (s sep : Text) : List Text :=
  if sep = [] then splitBlank (s.length + 1) s else splitSep sep (s.length + 1) s

/-- what is annotated: the field with this number, `":0:"`, …; a record, `":"`; a header, `"::"`; what is from this
file, by its path -/
inductive Feature where
  | field (j : Nat) | data | header | path
  deriving DecidableEq

/-- an annotation; its value is 0 -/
abbrev Note := Feature × Int × Int

/-- the appender of a thread's transaction, with its annotations -/
structure Clone where
  app : App := {}
  notes : List Note := []

/-- `meadowlark/meadowlark.cc:366-383`: the fields, from number `j` on; `p0` and `q0` are the record's so far -/
def addFields (T : Tokenizer) (wsep : Text) : Nat → List Text → Clone → Int → Int → Clone × Int × Int
  | _, [], c, p0, q0 => (c, p0, q0)
  | j, field :: fields, c, p0, q0 =>
    let field := if fields ≠ [] then field ++ wsep else field
    let r := c.app.append T field
    let notes := if r.2.1 ≤ r.2.2 then c.notes ++ [(.field j, r.2.1, r.2.2)] else c.notes
    addFields T wsep (j + 1) fields ⟨r.1, notes⟩ (min p0 r.2.1) (max q0 r.2.2)

/-- `meadowlark/meadowlark.cc:353-394`: the lines of a thread; `first` if the next of them is the first of the file, and
there is a header.  Nothing is refused. -/
def addLines (T : Tokenizer) (sep wsep : Text) : Bool → List Text → Clone → Int → Int → Clone × Int × Int
  | _, [], c, p, q => (c, p, q)
  | first, line :: lines, c, p, q =>
    let r := addFields T wsep 0 (splitTsv line sep) c maxfinity minfinity
    let notes := if r.2.1 ≤ r.2.2 then r.1.notes ++ [(if first then .header else .data, r.2.1, r.2.2)] else r.1.notes
    addLines T sep wsep false lines { r.1 with notes := notes } (min p r.2.1) (max q r.2.2)

/-- `meadowlark/meadowlark.cc:317-319`, `343-396`: what a thread that has these lines appends and annotates -/
def addShare (T : Tokenizer) (sep : Text) (first : Bool) (lines : List Text) : Clone :=
  let wsep := if sep = [] then [0x09] else sep
  let r := addLines T sep wsep first lines {} maxfinity minfinity
  if r.2.1 ≤ r.2.2 then { r.1 with notes := r.1.notes ++ [(.path, r.2.1, r.2.2)] } else r.1

end Verif.Tsv
