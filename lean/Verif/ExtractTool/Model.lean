import Verif.Judge.Model
import Verif.Gcl.ParseModel
/-
  Model of apps/rag2024-extract.cc: for the lines of a run, the title and the text of the segments that they name.

  Items, titles and segments are the intervals of `:`, `title:` and `segment:`, in order; `occurs` gives the places of the words of an identifier (C01 and after for
  hoppers, phrases and `>>`), and `translate` the text at some addresses.
-/
namespace Verif.ExtractTool

abbrev Text := List Char
abbrev Interval := Int × Int

/-- rag2024-extract.cc 20-24 -/
def blank (c : Char) : Char := if c = '\t' ∨ c = '\n' ∨ c = '\r' then ' ' else c

/-- rag2024-extract.cc 13-28; nothing when it is undefined (`back` of an empty string, 25) -/
def strip (s : Text) : Option Text :=
  if s = [] then some []
  else
    let t := (if s.head? = some '"' then s.tail else s).map blank
    if t = [] then none else some (if t.getLast? = some '"' then t.dropLast else t)

/-- `split_re` (core.cc 48-55) with its default pattern: line ends at the end are dropped, and then it is as in `load_trec_qrels` -/
def splitRe (line : Text) : List Text := Verif.Judge.fields (line.reverse.dropWhile (fun c => c == '\n' || c == '\r')).reverse

structure Collection where
  items : List Interval
  titles : List Interval
  segments : List Interval
  occurs : Text → List Interval
  translate : Int → Int → Text

def inside (x y : Interval) : Bool := decide (y.1 ≤ x.1) && decide (x.2 ≤ y.2)

/-- rag2024-extract.cc 65 -/
def queryText (docno : Text) : Text := ['(', '>', '>', ' ', ':', ' ', '"'] ++ docno ++ ['"', ')']

/-- `hopper_from_gcl` gives a hopper (66).  (With quotes in the identifier it may be one for another query, about which nothing is said: `occurs` is then anything.) -/
def parses (docno : Text) : Bool :=
  match Verif.Gcl.fromString (queryText docno) with
  | .good _ _ => true
  | _ => false

/-- rag2024-extract.cc 68: the first item from address 0 on that has the identifier in it -/
def findItem (c : Collection) (docno : Text) : Option Interval := c.items.find? fun i => decide (0 ≤ i.1) && (c.occurs docno).any fun o => inside o i

/-- rag2024-extract.cc 75-76, 80-81: the first interval from the front of the item on, when it does not end after the item -/
def within (l : List Interval) (item : Interval) : Option Interval :=
  match l.find? fun i => decide (item.1 ≤ i.1) with
  | none => none
  | some i => if i.2 > item.2 then none else some i

/-- rag2024-extract.cc 73-87; nothing when it is undefined -/
def passage (c : Collection) (item : Interval) : Option Text :=
  match (match within c.titles item with
    | none => some []
    | some t => strip (c.translate t.1 t.2)) with
  | none => none
  | some title =>
    match within c.segments item with
    | none => some title
    | some s =>
      match strip (c.translate s.1 s.2) with
      | none => none
      | some text => some ((if title = [] then title else title ++ ['.', ' ']) ++ text)

/-- how the program ends -/
inductive End
  | zero
  | one
  | undefined
  deriving DecidableEq

/-- rag2024-extract.cc 61-64 -/
def docnoOf (fields : List Text) : Text := if fields.length > 2 then fields.getD 2 [] else fields.getD 1 []

/-- rag2024-extract.cc 54-93: what is printed, and the end -/
def run (c : Collection) : List Text → End × Text
  | [] => (.zero, [])
  | line :: ls =>
    let fields := splitRe line
    if fields.length < 2 then (.one, [])
    else
      let docno := docnoOf fields
      if parses docno = false then (.undefined, [])
      else
        match findItem c docno with
        | none => (.one, [])
        | some item =>
          match passage c item with
          | none => (.undefined, [])
          | some p =>
            let r := run c ls
            (r.1, (if p = [] then [] else fields.getD 0 [] ++ '\t' :: (docno ++ '\t' :: (p ++ ['\n']))) ++ r.2)

/-! ### specification -/

/-- a line at its tabs -/
def tabFields : Text → List Text
  | [] => [[]]
  | c :: t =>
    if c = '\t' then [] :: tabFields t
    else
      match tabFields t with
      | [] => [[c]]
      | f :: fs => (c :: f) :: fs

/-- intervals in order, none in another -/
def Ordered (l : List Interval) : Prop := l.Pairwise fun a b => a.1 < b.1 ∧ a.2 < b.2

/-- a line of the input: a topic and an identifier, or a topic, a word, an identifier and any other words -/
structure Line where
  topic : Text
  docno : Text
  full : Option (Text × List Text)

def Word (t : Text) : Prop := t ≠ [] ∧ ∀ c ∈ t, Verif.Paths.isSpace c = false

def Line.Good (l : Line) : Prop := Word l.topic ∧ Word l.docno ∧ ∀ f ∈ l.full, Word f.1 ∧ ∀ w ∈ f.2, Word w

def joined : List Text → Text
  | [] => []
  | [w] => w
  | w :: v :: ws => w ++ ' ' :: joined (v :: ws)

def Line.text (l : Line) : Text :=
  match l.full with
  | none => joined [l.topic, l.docno]
  | some f => joined (l.topic :: f.1 :: l.docno :: f.2)

end Verif.ExtractTool
