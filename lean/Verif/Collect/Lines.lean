import Verif.Judge.Proof
/-
  Model of the collections in apps/collection.cc that have one document on each line: `collection_TREC_MARCO`,
  `collection_TREC_WaPo2`, `collection_c4`, `collection_MSMARCO_V2` and `collection_CAsT2022_preprocessed`.

  A text is a list of characters, one for each byte.  The parser of JSON is a parameter: what it makes of a line is one of the
  values below.  The builder takes everything (SimpleBuilder, whose flushing is left out); the number of addresses of a text is
  a parameter.
-/
namespace Verif.Collect.Lines
open Verif.Judge (lines)

abbrev Text := List Char

/-- what is in the index: the next address, the texts and the annotations -/
structure Built where
  next : Nat := 0
  texts : List Text := []
  notes : List (Text × Nat × Nat) := []
deriving DecidableEq

/-- src/simple_builder.cc 568-617 `add_text_`: where the text is -/
def addText (tk : Text → Nat) (t : Text) (s : Built) : Built × Nat × Nat :=
  if t = [] then (s, s.next + 1, s.next)
  else if tk t = 0 then ({ s with texts := s.texts ++ [t] }, s.next + 1, s.next)
  else ({ s with next := s.next + tk t, texts := s.texts ++ [t] }, s.next, s.next + tk t - 1)

/-- src/simple_builder.cc 657-666 `add_annotation_` -/
def annotate (tag : Text) (p q : Nat) (s : Built) : Built :=
  if p ≤ q then { s with notes := s.notes ++ [(tag, p, q)] } else s

/-- how the reading of a line or of a file ends: `true`, `false`, or an exception that nobody catches -/
inductive Ends
  | done | refused | dies
deriving DecidableEq

/-- the loops over lines (collection.cc 79, 186, 447, 498, 534): until one is refused -/
def run (step : Text → Built → Ends × Built) : List Text → Built → Ends × Built
  | [], s => (.done, s)
  | l :: ls, s =>
    let r := step l s
    if r.1 = .done then run step ls r.2 else r

/-- collection.cc 447-448 (also 498-499 and 534-535): the lines that end with a newline -/
def wholeFrom (cur : Text) : Text → List Text
  | [] => []
  | c :: t => if c = '\n' then cur :: wholeFrom [] t else wholeFrom (cur ++ [c]) t

def wholeLines (t : Text) : List Text := wholeFrom [] t

/-- a name, and after it the text (collection.cc 189-198, 509-518) -/
def passage (tk : Text → Nat) (name content : Text) (s : Built) : Built :=
  let a := addText tk name s
  let s := annotate [':', 'p', 'i', 'd'] a.2.1 a.2.2 a.1
  let b := addText tk content s
  annotate [':', 'p', 'a', 'r', 'a', 'g', 'r', 'a', 'p', 'h'] a.2.1 b.2.2 b.1

/-- collection.cc 186-199: a line of `collection_TREC_MARCO` (`substr` throws where there is no tab) -/
def marcoLine (tk : Text → Nat) (l : Text) (s : Built) : Ends × Built :=
  if '\t' ∈ l then (.done, passage tk (['M', 'A', 'R', 'C', 'O', '_'] ++ l.takeWhile (· != '\t')) (l.dropWhile (· != '\t')) s) else (.dies, s)

/-- collection.cc 177-201 `collection_TREC_MARCO`, for a file that can be read -/
def marco (tk : Text → Nat) (file : Text) (s : Built) : Ends × Built := run (marcoLine tk) (lines file) s

/-! ### JSON -/

/-- a value in an element of `contents` -/
inductive Value
  | text (t : Text)
  | number (shown : Text)
  | other

/-- a value in a document -/
inductive Field
  | null
  | text (t : Text)
  | array (es : List (List (Text × Value)))
  | other

/-- a document: an object (`null` becomes one without members), or something in which nothing can be looked up -/
inductive Doc
  | object (fields : List (Text × Field))
  | other

/-- what the parser makes of a line: a `parse_error`, another exception (a number that is too large), or a document -/
inductive Parsed
  | bad
  | over
  | doc (d : Doc)

/-- `j[key]`; `none` for the exception -/
def look (d : Doc) (key : Text) : Option Field :=
  match d with
  | .other => none
  | .object fs => some ((fs.find? fun x => x.1 == key).elim .null (·.2))

/-- `std::string x = j[key]`; `none` for the exception -/
def asText : Option Field → Option Text
  | some (.text t) => some t
  | _ => none

/-- collection.cc 449-455 (also 80-86, 500-506, 536-542): a line as a document -/
def withDoc (parse : Text → Parsed) (f : Doc → Built → Ends × Built) (l : Text) (s : Built) : Ends × Built :=
  match parse l with
  | .bad => (.refused, s)
  | .over => (.dies, s)
  | .doc d => f d s

/-- collection.cc 456-482: a document of `collection_c4` -/
def c4Doc (tk : Text → Nat) (d : Doc) (s : Built) : Ends × Built :=
  match look d ['t', 'e', 'x', 't'], look d ['u', 'r', 'l'] with
  | some (.text _), some .null => (.refused, s)
  | some (.text t), some u =>
    let a := addText tk t s
    let s := annotate [':', 't', 'e', 'x', 't'] a.2.1 a.2.2 a.1
    match asText (some u) with
    | none => (.refused, s)
    | some u =>
      let b := addText tk u s
      let s := annotate [':', 'u', 'r', 'l'] b.2.1 b.2.2 b.1
      (.done, annotate [':'] a.2.1 b.2.2 s)
  | _, _ => (.refused, s)

/-- collection.cc 436-485 `collection_c4` -/
def c4 (tk : Text → Nat) (parse : Text → Parsed) (file : Text) (s : Built) : Ends × Built :=
  run (withDoc parse (c4Doc tk)) (wholeLines file) s

/-- collection.cc 507-518: a document of `collection_MSMARCO_V2`; exceptions are not caught -/
def msDoc (tk : Text → Nat) (d : Doc) (s : Built) : Ends × Built :=
  match asText (look d ['p', 'i', 'd']), asText (look d ['p', 'a', 's', 's', 'a', 'g', 'e']) with
  | some n, some t => (.done, passage tk n t s)
  | _, _ => (.dies, s)

/-- collection.cc 487-521 `collection_MSMARCO_V2` -/
def msmarco (tk : Text → Nat) (parse : Text → Parsed) (file : Text) (s : Built) : Ends × Built :=
  run (withDoc parse (msDoc tk)) (wholeLines file) s

/-- collection.cc 543-558: a document of `collection_CAsT2022_preprocessed`; exceptions are not caught -/
def castDoc (tk : Text → Nat) (d : Doc) (s : Built) : Ends × Built :=
  match asText (look d ['i', 'd']), asText (look d ['t', 'i', 't', 'l', 'e']), asText (look d ['c', 'o', 'n', 't', 'e', 'n', 't', 's']) with
  | some n, some t, some c =>
    let a := addText tk n s
    let s := annotate [':', 'p', 'i', 'd'] a.2.1 a.2.2 a.1
    let s := (addText tk t s).1
    let b := addText tk c s
    (.done, annotate [':', 'p', 'a', 'r', 'a', 'g', 'r', 'a', 'p', 'h'] a.2.1 b.2.2 b.1)
  | _, _, _ => (.dies, s)

/-- collection.cc 523-561 `collection_CAsT2022_preprocessed` -/
def cast22 (tk : Text → Nat) (parse : Text → Parsed) (file : Text) (s : Built) : Ends × Built :=
  run (withDoc parse (castDoc tk)) (wholeLines file) s

/-! ### articles -/

/-- collection.cc 120-121 -/
def contentKey (k : Text) : Bool := k == ['c', 'o', 'n', 't', 'e', 'n', 't'] || k == ['b', 'l', 'u', 'r', 'b'] || k == ['f', 'u', 'l', 'l', 'c', 'a', 'p', 't', 'i', 'o', 'n']

/-- collection.cc 117-135: the text of an element -/
def content : List (Text × Value) → Text → Text
  | [], c => c
  | (k, v) :: rest, c =>
    if contentKey k then
      let c := if c = [] then c else c ++ [' ']
      match v with
      | .text t => content rest (c ++ t)
      | .number t => content rest (c ++ t)
      | .other => content rest c
    else content rest c

/-- collection.cc 131-134: whether it is a paragraph -/
def isPara (e : List (Text × Value)) : Bool :=
  e.any fun x => match x.2 with
    | .text t => x.1 == ['s', 'u', 'b', 't', 'y', 'p', 'e'] && t == ['p', 'a', 'r', 'a', 'g', 'r', 'a', 'p', 'h']
    | _ => false

/-- collection.cc 114-157: the elements; `number` and `q_article` as in the code -/
def elements (tk : Text → Nat) (id : Text) : List (List (Text × Value)) → (number q : Nat) → Built → Built × Nat
  | [], _, q, s => (s, q)
  | e :: es, number, q, s =>
    let c := content e []
    if c = [] then elements tk id es number q s
    else if isPara e then
      let a := addText tk (['W', 'A', 'P', 'O', '_'] ++ id ++ '-' :: Nat.toDigits 10 number) s
      let s := annotate [':', 'p', 'i', 'd'] a.2.1 a.2.2 a.1
      let b := addText tk c s
      elements tk id es (number + 1) b.2.2 (annotate [':', 'p', 'a', 'r', 'a', 'g', 'r', 'a', 'p', 'h'] a.2.1 b.2.2 b.1)
    else
      let b := addText tk c s
      elements tk id es number b.2.2 b.1

/-- collection.cc 97-104 (also 105-112 and 158-165): a text that may be missing, and the end of the article after it;
`none` for the exception -/
def maybe (tk : Text → Nat) (tag : Text) (f : Field) (q : Nat) (s : Built) : Option (Built × Nat) :=
  match f with
  | .null => some (s, q)
  | .text t =>
    let a := addText tk t s
    some (annotate tag a.2.1 a.2.2 a.1, a.2.2)
  | _ => none

/-- collection.cc 87-172: a document of `collection_TREC_WaPo2` (an empty object as `contents` is left out) -/
def wapoDoc (tk : Text → Nat) (d : Doc) (s : Built) : Ends × Built :=
  match d with
  | .other => (.refused, s)
  | .object fs =>
    let field (k : Text) : Field := (fs.find? fun x => x.1 == k).elim .null (·.2)
    match field ['i', 'd'] with
    | .null => (.done, s)
    | .text id =>
      let a := addText tk id s
      let s := annotate [':', 'i', 'd'] a.2.1 a.2.2 a.1
      match maybe tk [':', 't', 'i', 't', 'l', 'e'] (field ['t', 'i', 't', 'l', 'e']) a.2.2 s with
      | none => (.refused, s)
      | some (s, q) =>
        match maybe tk [':', 'a', 'u', 't', 'h', 'o', 'r'] (field ['a', 'u', 't', 'h', 'o', 'r']) q s with
        | none => (.refused, s)
        | some (s, q) =>
          match field ['c', 'o', 'n', 't', 'e', 'n', 't', 's'] with
          | .text _ => (.refused, s)
          | .other => (.refused, s)
          | c =>
            let x := elements tk id (match c with | .array es => es | _ => []) 1 q s
            match maybe tk [':', 'u', 'r', 'l'] (field ['a', 'r', 't', 'i', 'c', 'l', 'e', '_', 'u', 'r', 'l']) x.2 x.1 with
            | none => (.refused, x.1)
            | some (s, q) => (.done, annotate [':', 'a', 'r', 't', 'i', 'c', 'l', 'e'] a.2.1 q s)
    | _ => (.refused, s)

/-- collection.cc 70-175 `collection_TREC_WaPo2` -/
def wapo (tk : Text → Nat) (parse : Text → Parsed) (file : Text) (s : Built) : Ends × Built :=
  run (withDoc parse (wapoDoc tk)) (lines file) s

/-! ### specification -/

/-- what should be in the index: texts one after the other, some of which have a mark over them -/
inductive Part
  | text (t : Text)
  | mark (tag : Text) (ps : List Part)

mutual
/-- the texts -/
def Part.texts : Part → List Text
  | .text t => [t]
  | .mark _ ps => textsOf ps

def textsOf : List Part → List Text
  | [] => []
  | p :: ps => p.texts ++ textsOf ps
end

/-- the number of addresses -/
def Part.size (tk : Text → Nat) (p : Part) : Nat := (p.texts.map tk).sum

mutual
/-- the marks, from the first to the last address of what they are over -/
def Part.notes (tk : Text → Nat) (start : Nat) : Part → List (Text × Nat × Nat)
  | .text _ => []
  | .mark tag ps => notesOf tk start ps ++ [(tag, start, start + ((textsOf ps).map tk).sum - 1)]

def notesOf (tk : Text → Nat) (start : Nat) : List Part → List (Text × Nat × Nat)
  | [] => []
  | p :: ps => p.notes tk start ++ notesOf tk (start + p.size tk) ps
end

/-- an index with more in it -/
def Built.plus (tk : Text → Nat) (s : Built) (ps : List Part) : Built :=
  ⟨s.next + ((textsOf ps).map tk).sum, s.texts ++ textsOf ps, s.notes ++ notesOf tk s.next ps⟩

/-- a text with something in it -/
def Worded (tk : Text → Nat) (t : Text) : Prop := t ≠ [] ∧ 0 < tk t

/-- a file with these lines -/
def fileOf (ls : List Text) : Text := ls.flatMap fun l => l ++ ['\n']

end Verif.Collect.Lines
