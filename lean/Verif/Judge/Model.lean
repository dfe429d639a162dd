import Verif.Eval.Model
import Verif.Paths.Model
/-
  Model of the reading of judgements in src/eval.cc: `trec_docno`, `translate_docno` and `load_trec_qrels`.

  Bytes are written as characters, as in the model of the query language.  `atof` is a parameter; the file can be
  opened and is read in full.
-/
namespace Verif.Judge
open Verif.Hopper Verif.Gcl Verif.Props
open Verif.Paths (isSpace)

/-! ### the number of a document, from its text -/

/-- eval.cc 17 -/
def startTag : List Char := ['<', 'D', 'O', 'C', 'N', 'O', '>']

/-- eval.cc 18 -/
def endTag : List Char := ['<', '/', 'D', 'O', 'C', 'N', 'O', '>']

/-- eval.cc 21-41: the loop of `trec_docno`; `skip` characters are left of a tag that was found (23, 27) -/
def docnoLoop : Nat → Bool → List Char → List Char
  | _, _, [] => []
  | skip + 1, started, _ :: cs => docnoLoop skip started cs
  | 0, started, c :: cs =>
    if startTag.isPrefixOf (c :: cs) then docnoLoop 6 started cs
    else if endTag.isPrefixOf (c :: cs) then docnoLoop 7 started cs
    else if isSpace c then
      if started then [] else docnoLoop 0 started cs
    else if c ≠ '"' then c :: docnoLoop 0 true cs
    else docnoLoop 0 true cs

/-- eval.cc 16-43 `trec_docno` -/
def trecDocno (text : List Char) : List Char := docnoLoop 0 false text

/-! ### the document of a number -/

/-- eval.cc 62-69: the query -/
def query (container identifier docno : List Char) : List Char :=
  ['(', '>', '>', ' '] ++ container ++ [' ', '(', '>', '>', ' '] ++ identifier ++ [' ', '"'] ++ docno ++ ['"', ')', ')']

/-- eval.cc 46-79 `translate_docno`: the document, nothing if it fails (49, 55, 57, 71, 74); `none` if a hopper overflows.
`identifier` is what `get_parameter` finds, if it does. -/
def translateDocno (ix : Index) (split : List Char → List (List Char)) (count : List Char → Int)
    (container : List Char) (identifier : Option (List Char)) (docno : List Char) : Option (Option Ann) :=
  if container = [] then some none
  else match identifier with
    | none => some none
    | some identifier =>
      if identifier = [] then some none
      else match gclHopper ix split count (query container identifier docno) with
        | none => some none
        | some H =>
          match H.tau (minfinity + 1) H.init with
          | none => none
          | some (r, _) => if r.p = maxfinity then some none else some (some r)

/-! ### the file -/

/-- `std::getline` until the end of the file (eval.cc 106); `cur` is the line so far -/
def linesFrom (cur : List Char) : List Char → List (List Char)
  | [] => if cur = [] then [] else [cur]
  | c :: cs => if c = '\n' then cur :: linesFrom [] cs else linesFrom (cur ++ [c]) cs

/-- the lines of the file -/
def lines (text : List Char) : List (List Char) := linesFrom [] text

/-- `std::sregex_token_iterator` with the pieces between matches of `\s+` (eval.cc 103, 107-108): the piece at the
front may be empty, one at the end is not, unless nothing matched; `first` says that nothing matched so far, `run`
that the last character is part of a match -/
def fieldsFrom (first run : Bool) (cur : List Char) : List Char → List (List Char)
  | [] => if first ∨ cur ≠ [] then [cur] else []
  | c :: cs =>
    if isSpace c then
      if run then fieldsFrom false true [] cs else cur :: fieldsFrom false true [] cs
    else fieldsFrom first false (cur ++ [c]) cs

/-- the fields of a line -/
def fields (line : List Char) : List (List Char) := fieldsFrom true false [] line

/-- what a line says -/
structure Entry where
  topic : List Char
  docno : List Char
  doc : Ann
  level : Rat
deriving DecidableEq

/-- eval.cc 106-124: the lines one after the other, with whether all of them were read; `translate` is
`translate_docno` -/
def readLines (translate : List Char → Option (Option Ann)) (atof : List Char → Rat) :
    List (List Char) → Option (List Entry × Bool)
  | [] => some ([], true)
  | line :: rest =>
    match fields line with
    | [topic, _, docno, level] =>
      match translate docno with
      | none => none
      | some none => some ([], false)
      | some (some doc) =>
        match readLines translate atof rest with
        | none => none
        | some (es, ok) => some (⟨topic, docno, doc, atof level⟩ :: es, ok)
    | _ => some ([], false)

/-- `map[topic][p] = value` (eval.cc 121, 123) -/
def put {β : Type} (key : List Char × Int) (value : β) : List ((List Char × Int) × β) → List ((List Char × Int) × β)
  | [] => [(key, value)]
  | x :: l => if x.1 = key then (key, value) :: l else x :: put key value l

/-- what `load_trec_qrels` leaves in its three maps, and what it returns -/
structure Loaded where
  ok : Bool
  qrels : List ((List Char × Int) × Option Rat)
  lengths : List ((List Char × Int) × Int)
  docnos : List ((List Char × Int) × List Char)

/-- the lines as `Eval.loadLines` takes them (eval.cc 113, 119) -/
def graded (es : List Entry) : Eval.Graded (List Char) := es.map fun e => ((e.topic, e.doc.p), e.level)

/-- eval.cc 91-135 `load_trec_qrels` into empty maps, none of them null (one that is null is left out; the others are
the same).  If it fails (109, 116) the levels are left as they were read. -/
def load (translate : List Char → Option (Option Ann)) (atof : List Char → Rat) (pow : Rat → Rat) (microsoft : Bool)
    (text : List Char) : Option Loaded :=
  match readLines translate atof (lines text) with
  | none => none
  | some (es, ok) => some {
      ok := ok
      qrels := if ok then Eval.loadQrels pow microsoft [] (graded es)
        else (Eval.loadLines (graded es) [] 0).1.map fun x => (x.1, some x.2)
      lengths := es.foldl (fun m e => put (e.topic, e.doc.p) (e.doc.q - e.doc.p + 1) m) []
      docnos := es.foldl (fun m e => put (e.topic, e.doc.p) e.docno m) [] }

end Verif.Judge
