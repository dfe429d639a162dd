import Verif.Collect.Lines
/-
  Model of apps/treccast21-build.cc (passages with tabs), apps/wikidata-build.cc (a dump of items, one on a line) and apps/dagstuhl-trec45.cc (texts of documents for a list of names).

  The builder is that of C90; what a scribe does with an item is C77 and after, and here a parameter.
-/
namespace Verif.Feeds
open Verif.Judge (lines)
open Verif.Collect.Lines (Built Ends passage run)

abbrev Text := List Char

/-! ### passages -/

/-- treccast21-build.cc 14-27: a line (`substr` throws where there is no tab) -/
def tsvLine (tk : Text → Nat) (l : Text) (s : Built) : Ends × Built :=
  if '\t' ∈ l then (.done, passage tk (l.takeWhile (· != '\t')) (l.dropWhile (· != '\t')) s) else (.dies, s)

/-- treccast21-build.cc 66-73: the files in turn; nothing for a file that cannot be opened (8-12) -/
def tsvFiles (tk : Text → Nat) : List (Option Text) → Built → Ends × Built
  | [], s => (.done, s)
  | none :: _, s => (.refused, s)
  | some file :: fs, s =>
    let r := run (tsvLine tk) (lines file) s
    if r.1 = .done then tsvFiles tk fs r.2 else r

/-! ### dumps -/

/-- wikidata-build.cc 40-41: the line up to its last closing brace; nothing when there is none (`back` of an empty string is undefined) -/
def upToBrace (line : Text) : Option Text :=
  match line.reverse.dropWhile (· != '}') with
  | [] => none
  | r => some r.reverse

/-- wikidata-build.cc 37-50: the items that the scribe was given, with whether it took them, and nothing when it is undefined -/
def dump (scribe : Text → Bool) : List Text → Option (List (Text × Bool))
  | [] => some []
  | l :: ls =>
    if l = [] ∨ l = ['['] ∨ l = [']'] then dump scribe ls
    else
      match upToBrace l with
      | none => none
      | some item =>
        match dump scribe ls with
        | none => none
        | some rest => some ((item, scribe item) :: rest)

/-- wikidata-build.cc 37-52: the status of the program after that -/
def dumpStatus (_ : List (Text × Bool)) : Nat := 0

/-! ### texts -/

/-- dagstuhl-trec45.cc 42-56: tags are blanked, up to their end or the end of the line -/
def untag : Bool → Text → Text
  | _, [] => []
  | true, c :: t => if c = '>' then ' ' :: untag false t else if c = '\n' then c :: untag false t else ' ' :: untag true t
  | false, c :: t => if c = '<' then '-' :: untag true t else c :: untag false t

/-- dagstuhl-trec45.cc 57-59 -/
def blank (s : Text) : Text := s.map fun c => if c = '\n' ∨ c = '\t' ∨ c = '\r' then ' ' else c

/-- dagstuhl-trec45.cc 60-71 -/
def squeeze : Bool → Text → Text
  | _, [] => []
  | true, c :: t => if c ≠ ' ' then c :: squeeze false t else squeeze true t
  | false, c :: t => c :: squeeze (c == ' ') t

/-- dagstuhl-trec45.cc 41-73 -/
def cleaned (s : Text) : Text := squeeze false (blank (untag false s))

/-- dagstuhl-trec45.cc 75-77: the last address of the text that is shown -/
def lastShown (p q : Int) : Int := if q - p + 1 > 2048 then p + 2048 else q

/-- dagstuhl-trec45.cc 28-32: the fields of a line (`getline` gives no field after a last tab) -/
def fieldsFrom (cur : Text) : Text → List Text
  | [] => if cur = [] then [] else [cur]
  | c :: t => if c = '\t' then cur :: fieldsFrom [] t else fieldsFrom (cur ++ [c]) t

/-- core.h 17-18 -/
def maxAddr : Int := 9223372036854775807
def minAddr : Int := -9223372036854775808

/-- `tau` on a list of solutions by rising addresses (C01, C02) -/
def tauOf (solutions : List (Int × Int)) (k : Int) : Int × Int := (solutions.find? fun s => k ≤ s.1).getD (maxAddr, maxAddr)

/-- `ohr` on such a list (hopper.h 52-61, 120-122: the end of the addresses is its own answer) -/
def ohrOf (solutions : List (Int × Int)) (k : Int) : Int × Int :=
  if k = maxAddr then (maxAddr, maxAddr) else (solutions.reverse.find? fun s => s.1 ≤ k).getD (minAddr, minAddr)

/-- dagstuhl-trec45.cc 37-40, 74-77: the addresses of the text of a document, from the places of its name and all documents: nothing (inside) for no document, and nothing (outside) when the address after
the name is beyond the addresses -/
def placeOf (names docs : List (Int × Int)) : Option (Option (Int × Int)) :=
  let name := tauOf names 0
  let doc := ohrOf docs name.1
  if doc.1 < 0 then some none
  else if name.2 + 1 > maxAddr then none
  else some (some (name.2 + 1, lastShown (name.2 + 1) doc.2))

/-- dagstuhl-trec45.cc 28-82: a line of the list gives a line of output with the text of the document that its third field names, or nothing (inside) for no document; and nothing (outside) when it is
undefined, for a line with fewer than three fields and as above.  The places of a name and of the documents, and the text between addresses, are parameters. -/
def listed (namesOf : Text → List (Int × Int)) (docs : List (Int × Int)) (translate : Int → Int → Text) (line : Text) : Option (Option Text) :=
  match (fieldsFrom [] line)[2]? with
  | none => none
  | some name =>
    match placeOf (namesOf name) docs with
    | none => none
    | some none => some none
    | some (some (p, q)) => some (some ((fieldsFrom [] line).flatMap (fun f => f ++ ['\t']) ++ cleaned (translate p q) ++ ['\n']))

/-! ### specification -/

/-- words: what is between blanks, newlines, tabs and returns -/
def wordsFrom (cur : Text) : Text → List Text
  | [] => if cur = [] then [] else [cur]
  | c :: t => if c = ' ' ∨ c = '\n' ∨ c = '\t' ∨ c = '\r' then (if cur = [] then wordsFrom [] t else cur :: wordsFrom [] t) else wordsFrom (cur ++ [c]) t

def words (s : Text) : List Text := wordsFrom [] s

/-- a piece of a document: some text, or a tag -/
inductive Piece where
  | plain (t : Text)
  | tag (t : Text)

/-- what the piece is in the file -/
def Piece.source : Piece → Text
  | .plain t => t
  | .tag t => '<' :: (t ++ ['>'])

/-- and what a reader should see of it: text as it is, a dash for a tag and blanks after it -/
def Piece.seen : Piece → Text
  | .plain t => t
  | .tag _ => ['-', ' ']

def Piece.Good : Piece → Prop
  | .plain t => '<' ∉ t
  | .tag t => '>' ∉ t ∧ '\n' ∉ t

end Verif.Feeds
