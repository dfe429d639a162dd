/-
  Model of the two programs for learned sparse vectors: apps/splade-annotate.cc, which adds the vectors of documents to an
  index, and apps/splade.cc, which ranks documents for the vectors of queries.

  `Q` is the type of floating-point numbers, of which only the sign matters here.  The JSON parser and the tokenizer are
  parameters.  What `product_ranking` makes of weights and annotations is the subject of C62.
-/
namespace Verif.Splade

abbrev Text := List Char

/-- the values of a vector: integers (`is_number_integer`, in the range of `int64_t` or `uint64_t`), floating-point numbers
(`is_number_float`) and others -/
inductive Value (Q : Type)
  | int (v : Int)
  | real (w : Q)
  | other

/-- a line of a file: not JSON (`json::parse_error`); JSON with a number that is too large (`json::out_of_range`, which is not
caught); JSON that has no fields (`operator[]` throws `json::type_error`, which is not caught); an object, with its name if that is
a string, and its vector if that is an object.  The names of fields in an object are all different and ordered. -/
inductive Line (Q : Type)
  | bad
  | over
  | other
  | record (name : Option Text) (vector : Option (List (Text × Value Q)))

/-- how a program ends: `exit(0)`, `exit(1)` or by an exception -/
inductive Ends
  | zero
  | one
  | dies
  deriving DecidableEq

/-- a document (what `content_query` finds), with the words of its identifier (what `id_query` finds in it) -/
structure Doc where
  start : Nat
  words : List Text
  deriving DecidableEq

/-- an annotation with a term at an address; the feature is that of `splade:` and the term (tagging_featurizer.h) -/
structure Note where
  term : Text
  place : Nat
  weight : Int
  deriving DecidableEq

/-- the words are one after the other somewhere -/
def occurs (ws : List Text) : List Text → Bool
  | [] => ws.isEmpty
  | x :: l => ws.isPrefixOf (x :: l) || occurs ws l

inductive Found
  | broken
  | absent
  | place (p : Nat)

/-- splade-annotate.cc 97-113: the first solution of `(>> content (>> id "docid"))`; `phrase` is what the parser and the tokenizer
make of the docid between the quotes (gcl/parse.cc 91-176, 203-228): nothing when the query cannot be parsed, as with a quote in it.
(A phrase without words stays a term that is found nowhere.) -/
def find (docs : List Doc) (phrase : Text → Option (List Text)) (docid : Text) : Found :=
  match phrase docid with
  | none => .broken
  | some ws =>
    match docs.find? fun d => !ws.isEmpty && occurs ws d.words with
    | none => .absent
    | some d => .place d.start

/-- splade-annotate.cc 116-118: `value = element.value()`; an unsigned number that is too large for `addr` wraps around -/
def valueOf {Q : Type} : Value Q → Int
  | .int v => if v ≥ 9223372036854775808 then v - 18446744073709551616 else v
  | _ => 0

/-- splade-annotate.cc 115-128.  Simplified: `annotate` does not fail, and no term has the feature that is ignored. -/
def notesOf {Q : Type} (p : Nat) (vector : List (Text × Value Q)) : List Note :=
  vector.filterMap fun e => if valueOf e.2 > 0 then some ⟨e.1, p, valueOf e.2⟩ else none

/-- splade-annotate.cc 75-129: the loop over the lines, and what was annotated -/
def collect {Q : Type} (docs : List Doc) (phrase : Text → Option (List Text)) : List (Line Q) → Ends × List Note
  | [] => (.zero, [])
  | l :: ls =>
    match l with
    | .bad => collect docs phrase ls
    | .over => (.dies, [])
    | .other => (.dies, [])
    | .record _ none => collect docs phrase ls
    | .record none (some _) => collect docs phrase ls
    | .record (some docid) (some vector) =>
      match find docs phrase docid with
      | .broken => (.one, [])
      | .absent => collect docs phrase ls
      | .place p =>
        let r := collect docs phrase ls
        (r.1, notesOf p vector ++ r.2)

/-- splade-annotate.cc 68-137: how the program ends and what it has added to the index; `ready` is whether
`warren->annotator()->ready()` succeeds -/
def annotate {Q : Type} (docs : List Doc) (phrase : Text → Option (List Text)) (ready : Bool) (file : List (Line Q)) : Ends × List Note :=
  match collect docs phrase file with
  | (.zero, ns) => (.zero, if ready then ns else [])
  | (e, _) => (e, [])

/-- splade.cc 110-118: the weights of a vector that are set in `queries[topic]` -/
def weightsOf {Q : Type} (positive : Q → Bool) (vector : List (Text × Value Q)) : List (Text × Q) :=
  vector.filterMap fun e =>
    match e.2 with
    | .real w => if positive w then some (e.1, w) else none
    | _ => none

/-- splade.cc 84-119: the topics, and the assignments to `queries` in turn; nothing when the program dies -/
def readQueries {Q : Type} (positive : Q → Bool) : List (Line Q) → Option (List Text × List (Text × Text × Q))
  | [] => some ([], [])
  | l :: ls =>
    match l with
    | .bad => readQueries positive ls
    | .over => none
    | .other => none
    | .record none _ => readQueries positive ls
    | .record (some topic) vector =>
      match readQueries positive ls with
      | none => none
      | some r =>
        some (topic :: r.1, (match vector with | none => [] | some v => (weightsOf positive v).map fun e => (topic, e.1, e.2)) ++ r.2)

/-- the value of `queries[topic][term]`, if it is there: that of the last assignment -/
def weight {Q : Type} (sets : List (Text × Text × Q)) (topic term : Text) : Option Q :=
  (sets.reverse.find? fun e => e.1 == topic && e.2.1 == term).map (·.2.2)

/-- splade.cc 29-40: the number of threads -/
def threadsOf (option : Option Int) : Nat :=
  match option with
  | none => 50
  | some t => if t > 0 ∧ t < 50 then t.toNat else 50

/-- splade.cc 122: the topics of a thread, `for (size_t j = i; j < topics.size(); j += threads)`; no more than `fuel` -/
def jobsFrom (threads n : Nat) : Nat → Nat → List Nat
  | 0, _ => []
  | fuel + 1, j => if j < n then j :: jobsFrom threads n fuel (j + threads) else []

def jobs (threads n i : Nat) : List Nat := jobsFrom threads n n i

/-- the runs of threads that each do their jobs in turn: a job is done with a lock held (splade.cc 128-144), so what it prints is not
mixed with what others print -/
inductive Runs {β : Type} : List (List β) → List β → Prop
  | done {ws} : (∀ w ∈ ws, w = []) → Runs ws []
  | step {ws : List (List β)} {i : Nat} {x : β} {xs out} : ws[i]? = some (x :: xs) → Runs (ws.set i xs) out → Runs ws (x :: out)

/-- splade.cc 126-127: `queries[topic]` is called by all the threads, without a lock, and inserts a topic that has no weights.  A race: two
threads use the map, and one of them inserts. -/
def Race {Q : Type} (threads : Nat) (topics : List Text) (sets : List (Text × Text × Q)) : Prop :=
  ∃ i i' j j' topic, i < threads ∧ i' < threads ∧ i ≠ i' ∧ j ∈ jobs threads topics.length i ∧ j' ∈ jobs threads topics.length i' ∧
    topics[j]? = some topic ∧ ∀ e ∈ sets, e.1 ≠ topic

/-! ### specification -/

/-- what the lines of a file say about documents: those that say nothing are passed over, and a vector is that of the one document whose
identifier has the words of its docid, which are all its words -/
inductive Says {Q : Type} (docs : List Doc) (phrase : Text → Option (List Text)) : List (Line Q) → List (Doc × List (Text × Value Q)) → Prop
  | nil : Says docs phrase [] []
  | bad {ls rs} : Says docs phrase ls rs → Says docs phrase (.bad :: ls) rs
  | noVector {n ls rs} : Says docs phrase ls rs → Says docs phrase (.record n none :: ls) rs
  | noName {v ls rs} : Says docs phrase ls rs → Says docs phrase (.record none (some v) :: ls) rs
  | unknown {docid ws v ls rs} : phrase docid = some ws → (∀ d ∈ docs, ¬ws <:+: d.words) → Says docs phrase ls rs →
      Says docs phrase (.record (some docid) (some v) :: ls) rs
  | vector {docid v d ls rs} : phrase docid = some d.words → d.words ≠ [] → d ∈ docs → (∀ d' ∈ docs, d.words <:+: d'.words → d' = d) →
      Says docs phrase ls rs → Says docs phrase (.record (some docid) (some v) :: ls) ((d, v) :: rs)

end Verif.Splade
