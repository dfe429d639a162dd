/-
  Model of `load_queries` of apps/trec-example.cc, which reads the queries of the example of a changing collection, and of the loop that does so in apps/dynamic-test.cc (and apps/idx-timing.cc).

  A file is its lines, without their ends.
-/
namespace Verif.Queries

abbrev Text := List Char

/-- a `std::map` from topics to queries -/
abbrev Table := Text → Option Text

/-- trec-example.cc 85: `(*queries)[topic] = query` -/
def put (m : Table) (topic query : Text) : Table := fun t => if t = topic then some query else m t

/-- trec-example.cc 79: the text up to the first separator -/
def topicOf (sep : Char) (line : Text) : Text := line.takeWhile (· != sep)

/-- trec-example.cc 80: the text from the first separator on, with it -/
def queryOf (sep : Char) (line : Text) : Text := line.dropWhile (· != sep)

/-- trec-example.cc 72-84: topic and query of a line; nothing when it is refused.  The separator is a space, and when there is none it is a space again (72-74). -/
def readLine (line : Text) : Option (Text × Text) :=
  let sep := if line.contains ' ' then ' ' else ' '
  if line.contains sep = false then none
  else if topicOf sep line = [] ∨ queryOf sep line = [] then none
  else some (topicOf sep line, queryOf sep line)

/-- trec-example.cc 71-87: line by line; nothing when it fails -/
def loadQueries (m : Table) : List Text → Option Table
  | [] => some m
  | l :: ls =>
    match readLine l with
    | none => none
    | some (t, q) => loadQueries (put m t q) ls

/-- dynamic-test.cc 271-283, idx-timing.cc 73-85: as `readLine`, but the separator is a tab, and a space when there is none -/
def readEither (line : Text) : Option (Text × Text) :=
  let sep := if line.contains '\t' then '\t' else ' '
  if line.contains sep = false then none
  else if topicOf sep line = [] ∨ queryOf sep line = [] then none
  else some (topicOf sep line, queryOf sep line)

/-- dynamic-test.cc 270-286, idx-timing.cc 72-88: the queries, and the topics in the order of their lines; nothing when it fails -/
def loadTopics (m : Table) (topics : List Text) : List Text → Option (Table × List Text)
  | [] => some (m, topics)
  | l :: ls =>
    match readEither l with
    | none => none
    | some (t, q) => loadTopics (put m t q) (topics ++ [t]) ls

/-! ### specification -/

/-- a line with a tab or a space as separator -/
structure Line where
  tab : Bool
  topic : Text
  query : Text

def Line.sep (l : Line) : Char := if l.tab then '\t' else ' '

def Line.text (l : Line) : Text := l.topic ++ l.sep :: l.query

/-- there is a topic without tabs, and when a space is the separator there are no tabs at all and no space in the topic -/
def Line.Plain (l : Line) : Prop := l.topic ≠ [] ∧ '\t' ∉ l.topic ∧ (l.tab = false → ' ' ∉ l.topic ∧ '\t' ∉ l.query)

/-- a line as files have it: topic, separator, query -/
def written (sep : Char) (tq : Text × Text) : Text := tq.1 ++ sep :: tq.2

/-- the last query that was given for a topic -/
def lastQuery (tqs : List (Text × Text)) (t : Text) : Option Text := (tqs.reverse.find? fun tq => tq.1 = t).map (·.2)

/-- a topic that is not empty and in which there is no space -/
def Plain (t : Text) : Prop := t ≠ [] ∧ ' ' ∉ t

end Verif.Queries
