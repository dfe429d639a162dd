/-
  Model of how apps/trec-example.cc marks the judged documents of a file that was added, and of the table of relevant documents that a query is evaluated with (apps/dynamic-test.cc does the same).

  Documents and names of documents are the solutions of their queries, in order (C04); the text of a name is the name that `trec_docno` makes of it.  Levels are exact numbers.  The annotations of a topic are the
  solutions of its label: what is erased is not among them.
-/
namespace Verif.Marks

abbrev Text := List Char

structure Span where
  p : Int
  q : Int
deriving DecidableEq

structure Name where
  at_ : Span
  docno : Text
deriving DecidableEq

/-- an annotation with a value -/
structure Note where
  p : Int
  q : Int
  v : Rat
deriving DecidableEq

/-- judgements: the level of a document for a topic -/
abbrev Qrels := Text → Text → Option Rat

/-- trec-example.cc 90-97: by document and then by topic -/
def invert (qrels : Qrels) : Text → Text → Option Rat := fun docno topic => qrels topic docno

/-- trec-example.cc 346, `rho` of the document query: the first solution that does not end before -/
def rho (docs : List Span) (k : Int) : Option Span := docs.find? fun d => k ≤ d.q

/-- trec-example.cc 341-342: from the start of the file, as long as names end before its end -/
def namesIn (file : Span) (names : List Name) : List Name := (names.dropWhile fun n => n.at_.p < file.p).takeWhile fun n => n.at_.q < file.q

/-- trec-example.cc 343-363, for one topic: from the start of the document to the end of its name.  A name that no document ends after gives a note that starts after its end, which is left out here. -/
def marks (slerq : Text → Text → Option Rat) (topic : Text) (docs : List Span) (names : List Name) : List Note :=
  names.filterMap fun n => match rho docs n.at_.p with
    | none => none
    | some d => (slerq n.docno topic).map fun v => ⟨d.p, n.at_.q, v⟩

/-- trec-example.cc 341-364: the file as a whole -/
def markFile (qrels : Qrels) (topic : Text) (file : Span) (docs : List Span) (names : List Name) : List Note := marks (invert qrels) topic docs (namesIn file names)

/-- trec-example.cc 300-312 (the file that was added, for each file), 341-364: the annotations of a topic after several files were added -/
def markAll (qrels : Qrels) (topic : Text) (files docs : List Span) (names : List Name) : List Note := files.flatMap fun file => markFile qrels topic file docs names

/-- trec-example.cc 430, 434: `lrels[p] = v` of a map; the order of its entries is not kept here -/
def insertAt (p : Int) (v : Rat) : List (Int × Rat) → List (Int × Rat)
  | [] => [(p, v)]
  | (x, y) :: m => if x = p then (p, v) :: m else (x, y) :: insertAt p v m

/-- trec-example.cc 416, 428-430: a later annotation at the same address replaces the level -/
def levels (notes : List Note) : List (Int × Rat) := notes.foldl (fun m n => insertAt n.p n.v m) []

/-- trec-example.cc 432: half of the largest address -/
def fakeStart : Int := 4611686018427387903

/-- trec-example.cc 433-434: `k` more, at addresses where no text is -/
def pad : Nat → Int → List (Int × Rat) → List (Int × Rat)
  | 0, _, m => m
  | k + 1, fake, m => pad k (fake + 1) (insertAt fake 1 m)

/-- trec-example.cc 432-434: while there are fewer than were judged -/
def table (judged : Nat) (notes : List Note) : List (Int × Rat) := pad (judged - (levels notes).length) fakeStart (levels notes)

/-! ### specification -/

/-- the addresses from half of the largest on have no text -/
def textEnd : Int := (2 ^ 63 - 1) / 2

/-- documents come one after the other -/
def Disjoint : List Span → Prop
  | [] => True
  | d :: ds => d.p ≤ d.q ∧ (∀ e ∈ ds, d.q < e.p) ∧ Disjoint ds

/-- names come in order -/
def Ordered : List Name → Prop
  | [] => True
  | n :: ns => (∀ m ∈ ns, n.at_.p < m.at_.p ∧ n.at_.q < m.at_.q) ∧ Ordered ns

/-- the name is in the document -/
def Named (d : Span) (n : Name) : Prop := d.p ≤ n.at_.p ∧ n.at_.q ≤ d.q

end Verif.Marks
