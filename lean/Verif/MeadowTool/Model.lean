import Verif.Paths.Model
/-
  Model of apps/meadowlark.cc: a command line that appends files to a meadow.

  Bytes are written as characters.  What `append_tsv` and `append_jsonl` do with a file is the subject of C48 and C49; here each call has
  one of the outcomes that C48 leaves.  What `already_appended` answers is the subject of C52; here it is whether the path is
  recorded, or a failure.  What makes and opens a meadow is the subject of C80.
-/
namespace Verif.MeadowTool
open Verif.Paths (normalized)

abbrev Text := List Char

/-- apps/meadowlark.cc 14: the types of files -/
inductive Kind
  | tsv
  | jsonl
  deriving DecidableEq

/-- what is committed to a meadow: the path of a file (meadowlark/meadowlark.cc 105-121), and all its lines, added as its type says -/
inductive Item
  | path (p : Text)
  | content (p : Text) (k : Kind)
  deriving DecidableEq

/-- how `append_tsv` (meadowlark/meadowlark.cc 299-419) and `append_jsonl` (178-286) end: with the path and the lines committed; with
nothing; or with a failure after the path was committed (C48: only `append_tsv`, after line 313) -/
inductive Outcome
  | whole
  | nothing
  | part
  deriving DecidableEq

/-- what is in a directory: no description of a warren, that of a warren that is no meadow, or a meadow.  (Simplified: what cannot be read or
written is left out, and so is another program that changes it.) -/
inductive Place
  | nothing
  | other
  | meadow (items : List Item)
  deriving DecidableEq

abbrev World := Text → Place

/-- a directory is changed -/
def World.set (w : World) (name : Text) (p : Place) : World := fun n => if n = name then p else w n

/-- how the program ends: it returns 0 or 1, or uses a null pointer -/
inductive Exit
  | zero
  | one
  | crash
  deriving DecidableEq

/-- apps/meadowlark.cc 25 -/
def helpFlag : Text := ['-', '-', 'h', 'e', 'l', 'p']
/-- apps/meadowlark.cc 33 -/
def minusM : Text := ['-', 'm']
/-- apps/meadowlark.cc 33 -/
def meadowFlag : Text := ['-', '-', 'm', 'e', 'a', 'd', 'o', 'w']
/-- apps/meadowlark.cc 41 -/
def minusC : Text := ['-', 'c']
/-- apps/meadowlark.cc 41 -/
def createFlag : Text := ['-', '-', 'c', 'r', 'e', 'a', 't', 'e']
/-- apps/meadowlark.cc 63 -/
def tsvFlag : Text := ['-', '-', 't', 's', 'v']
/-- apps/meadowlark.cc 72 -/
def jsonlFlag : Text := ['-', '-', 'j', 's', 'o', 'n', 'l']
/-- apps/meadowlark.cc 72 -/
def jsonFlag : Text := ['-', '-', 'j', 's', 'o', 'n']
/-- meadowlark/meadowlark.cc 33 -/
def defaultMeadow : Text := ['a', '.', 'm', 'e', 'a', 'd', 'o', 'w']

/-- apps/meadowlark.cc 58-101: the files and their types, or nothing when the arguments are refused; `type` is `input_type`, `expecting` is
`expecting_file` -/
def parse (type : Option Kind) (expecting : Bool) : List Text → Option (List (Kind × Text))
  | [] => if expecting then none else some []
  | a :: as =>
    if a = tsvFlag then
      if expecting then none else parse (some .tsv) true as
    else if a = jsonlFlag ∨ a = jsonFlag then
      if expecting then none else parse (some .jsonl) true as
    else if a.head? = some '-' then none
    else
      match type with
      | none => none
      | some k => (parse type false as).map ((k, a) :: ·)

/-- apps/meadowlark.cc 102-113: all files are looked up before the first is appended; `bad` are those for which this fails -/
def ask (bad : Text → Bool) (items : List Item) : List (Kind × Text) → Option (List (Kind × Text × Bool))
  | [] => some []
  | x :: xs =>
    if bad x.2 then none
    else (ask bad items xs).map ((x.1, x.2, decide (Item.path (normalized x.2) ∈ items)) :: ·)

/-- apps/meadowlark.cc 120-131: what the call for a file commits -/
def commits (k : Kind) (f : Text) : Outcome → List Item
  | .whole => [.path (normalized f), .content (normalized f) k]
  | .nothing => []
  | .part => [.path (normalized f)]

/-- apps/meadowlark.cc 114-132: the files in turn; `outcome i` is that of the `i`-th file.  The result is whether all went well, and what
is in the meadow. -/
def appendAll (outcome : Nat → Outcome) : Nat → List (Kind × Text × Bool) → List Item → Bool × List Item
  | _, [], items => (true, items)
  | i, x :: xs, items =>
    if x.2.2 then appendAll outcome (i + 1) xs items
    else
      let items' := items ++ commits x.1 x.2.1 (outcome i)
      if outcome i = .whole then appendAll outcome (i + 1) xs items' else (false, items')

/-- apps/meadowlark.cc 58-133: what is done in a meadow that is open -/
def work (bad : Text → Bool) (outcome : Nat → Outcome) (name : Text) (args : List Text) (items : List Item) (w : World) : Exit × World :=
  match parse none false args with
  | none => (.one, w)
  | some inputs =>
    match ask bad items inputs with
    | none => (.one, w)
    | some marked =>
      let r := appendAll outcome 0 marked items
      (if r.1 then .zero else .one, w.set name (.meadow r.2))

/-- apps/meadowlark.cc 31-37: the name of the meadow, and the other arguments -/
def meadowOf : List Text → Text × List Text
  | a :: b :: as => if a = minusM ∨ a = meadowFlag then (b, as) else ([], a :: b :: as)
  | as => ([], as)

/-- meadowlark/meadowlark.cc 48-50, 65-67: without a name it is the default one (apps/meadowlark.cc 42-51) -/
def placeOf (name : Text) : Text := if name = [] then defaultMeadow else name

/-- apps/meadowlark.cc 22-134 `main`.  Creating a meadow is refused where there is a warren (C80); opening one where there is none uses a
null pointer (`C80_open_meadow_undefined`). -/
def main (bad : Text → Bool) (outcome : Nat → Outcome) (args : List Text) (w : World) : Exit × World :=
  if args = [helpFlag] then (.zero, w)
  else
    let m := meadowOf args
    match m.2 with
    | [] => (.zero, w)
    | a :: as =>
      if a = minusC ∨ a = createFlag then
        match w (placeOf m.1) with
        | .nothing => work bad outcome (placeOf m.1) as [] (w.set (placeOf m.1) (.meadow []))
        | _ => (.one, w)
      else
        match w (placeOf m.1) with
        | .nothing => (.crash, w)
        | .other => (.one, w)
        | .meadow items => work bad outcome (placeOf m.1) (a :: as) items w

/-! ### specification -/

/-- the name of a file: no option -/
def IsFile (a : Text) : Prop := a.head? ≠ some '-'

/-- what the options say about the files after them -/
inductive Says : Text → Kind → Prop
  | tsv : Says tsvFlag .tsv
  | jsonl : Says jsonlFlag .jsonl
  | json : Says jsonFlag .jsonl

/-- groups of files: an option and one or more files -/
inductive Groups : List Text → List (Kind × Text) → Prop
  | nil : Groups [] []
  | group {flag k f fs rest is} : Says flag k → IsFile f → (∀ x ∈ fs, IsFile x) → Groups rest is →
      Groups (flag :: f :: (fs ++ rest)) ((k, f) :: (fs.map fun x => (k, x)) ++ is)

/-- the lines of a file, whatever its type -/
def isLines (p : Text) : Item → Bool
  | .content q _ => q == p
  | .path _ => false

/-- no file is named twice -/
def NamedOnce (is : List (Kind × Text)) : Prop := (is.map fun x => normalized x.2).Nodup

end Verif.MeadowTool
