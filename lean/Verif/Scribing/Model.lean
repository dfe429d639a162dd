/-
Model of `scribe_files` and `scribe_jsonl` (src/scribe.cc 256-359) over a scribe of a warren
(`WarrenScribe`, 56-96; `Committable`, src/committable.h).

What was appended and annotated in the open transaction is `Json.Scribe` (names in place of
features).  Anything may be refused: what the warren does is a parameter.  What of a document
is in the open transaction when `json_scribe` gives up in the middle of it is not modelled.
-/
import Verif.Json.Model
import Verif.Hopper.Spec
namespace Verif.Scribing
open Verif.Text Verif.Json Verif.Hopper

/-- Whether the warren does what it is asked: begin a transaction, append, annotate, take a
document, get ready. -/
structure Rules where
  begins : List Scribe → Bool
  appends : Scribe → Text → Bool
  annotates : Scribe → Text → Bool
  takes : Scribe → Text → Bool
  readies : Scribe → Bool

/-- The scribe: whether a transaction is open (`started_`, committable.h 73), what is in it, and the
transactions that were committed. -/
structure World where
  started : Bool := false
  cur : Scribe := {}
  done : List Scribe := []

/-- `Scribe::transaction` committable.h 20-33; `none` if it is refused -/
def World.transaction (R : Rules) (w : World) : Option World :=
  if w.started then none
  else if R.begins w.done then some { w with started := true, cur := {} }
  else none

/-- `ready` and `commit`, committable.h 34-59, scribe.cc 289-294; a transaction that could not
be made ready stays open -/
def World.finish (R : Rules) (w : World) : World × Bool :=
  if R.readies w.cur then ({ started := false, cur := {}, done := w.done ++ [w.cur] }, true) else (w, false)

/-- "file:", "filename:", "content:" scribe.cc 263-265 -/
def fileTag : Text := [0x66, 0x69, 0x6C, 0x65, 0x3A]
def filenameTag : Text := [0x66, 0x69, 0x6C, 0x65, 0x6E, 0x61, 0x6D, 0x65, 0x3A]
def contentTag : Text := [0x63, 0x6F, 0x6E, 0x74, 0x65, 0x6E, 0x74, 0x3A]

/-- `annotate` without a value; `none` if it is refused -/
def note (R : Rules) (st : Scribe) (tag : Text) (p q : Int) : Option Scribe :=
  if R.annotates st tag then some (st.annotate tag p q .zero) else none

/-- scribe.cc 273-286: one file that could be read -/
def fillFile (R : Rules) (T : Tokenizer) (name content : Text) (st : Scribe) : Option Scribe :=
  if !R.appends st name then none
  else
    let a := st.append T name
    if !R.appends a.1 content then none
    else
      let b := a.1.append T content
      (note R b.1 fileTag a.2.1 b.2.2).bind fun st =>
      (note R st filenameTag a.2.1 a.2.2).bind fun st =>
      note R st contentTag b.2.1 b.2.2

/-- scribe.cc 256-300 `scribe_files`; `read` is `inhale`.  A file that cannot be read is passed
over, with the transaction open (271-272).  The result is `false` as soon as something is
refused. -/
def scribeFiles (R : Rules) (T : Tokenizer) (read : Text → Option Text) : List Text → World → World × Bool
  | [], w => (w, true)
  | name :: names, w =>
    match w.transaction R with
    | none => (w, false)
    | some w =>
      match read name with
      | none => scribeFiles R T read names w
      | some content =>
        match fillFile R T name content w.cur with
        | none => (w, false)
        | some st =>
          match { w with cur := st }.finish R with
          | (w, false) => (w, false)
          | (w, true) => scribeFiles R T read names w

/-- scribe.cc 303-308 `path` -/
def pathOf (name : Text) : Text := if (0x2F : UInt8) ∈ name then name else 0x2E :: 0x2F :: name

/-- scribe.cc 329-345: the loop over the lines, from `prev` on; `cur` is the line so far -/
def fillLines (R : Rules) (parse : Text → Option Value) (T : Tokenizer) : Text → Text → Scribe → Int → Int → Option (Scribe × Int × Int)
  | _, [], st, p, q => some (st, p, q)
  | cur, c :: s, st, p, q =>
    if c = 0x0A then
      if !R.takes st cur then none
      else match jsonScribe parse T cur st with
        | none => none
        | some (st, p0, q0) => fillLines R parse T [] s st (min p p0) (max q q0)
    else fillLines R parse T (cur ++ [c]) s st p q

/-- scribe.cc 329-349 -/
def fillJsonl (R : Rules) (parse : Text → Option Value) (T : Tokenizer) (name everything : Text) (st : Scribe) : Option Scribe :=
  match fillLines R parse T [] everything st maxfinity minfinity with
  | none => none
  | some (st, p, q) => if p < maxfinity ∧ q > minfinity ∧ p ≤ q then note R st (pathOf name) p q else some st

/-- scribe.cc 311-359 `scribe_jsonl`, for a scribe that is not null -/
def scribeJsonl (R : Rules) (parse : Text → Option Value) (T : Tokenizer) (read : Text → Option Text) : List Text → World → World × Bool
  | [], w => (w, true)
  | name :: names, w =>
    match read name with
    | none => (w, false)
    | some everything =>
      match w.transaction R with
      | none => (w, false)
      | some w =>
        match fillJsonl R parse T name everything w.cur with
        | none => (w, false)
        | some st =>
          match { w with cur := st }.finish R with
          | (w, false) => (w, false)
          | (w, true) => scribeJsonl R parse T read names w

/-! ### Several scribes at once -/

/-- A scribe of a warren: its own flag and the flag of its warren that a transaction is open
(`started_`, committable.h 73), `committed_` (scribe.cc 95), and how often the warren was committed. -/
structure Pair where
  scribe : Bool := false
  warren : Bool := false
  committed : Bool := false
  commits : Nat := 0
  deriving DecidableEq

/-- `Warren::commit` -/
def Pair.commitWarren (x : Pair) : Pair := { x with warren := false, commits := x.commits + 1 }

/-- `Scribe::commit` with `WarrenScribe::commit_` scribe.cc 84-88 -/
def Pair.commit (x : Pair) : Pair :=
  let y := if !x.committed then x.commitWarren else x
  { y with committed := false, scribe := false }

/-- `Scribe::transaction` with `WarrenScribe::transaction_` scribe.cc 79-82 -/
def Pair.transaction (x : Pair) : Pair :=
  if x.scribe then x else { x with committed := false, scribe := true, warren := true }

/-- `Scribe::abort` with `WarrenScribe::abort_` scribe.cc 89-92 -/
def Pair.abort (x : Pair) : Pair :=
  if x.scribe then { x with committed := false, scribe := false, warren := false } else x

/-- `Scribe::commit_all` scribe.cc 237-254: `all` if all of them are scribes of warrens.
`Warren::commit_all` (C22) commits every warren once. -/
def commitAll (all : Bool) (xs : List Pair) : List Pair :=
  let xs := if all then xs.map fun x => { x.commitWarren with committed := true } else xs
  xs.map Pair.commit

end Verif.Scribing
