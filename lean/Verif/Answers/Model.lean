import Verif.Feeds.Model
/-
  Model of apps/qap.cc (passages that may answer questions), apps/mt.cc (runs for topics) and apps/dagstuhl.cc (texts of passages for a list of names).

  Rankings are parameters (C09 and after); the tokenizer of questions is a function.  In qap.cc, threads take the questions one by one, and the lines of each are printed while a lock is held; here are the
  questions that are taken and the lines of one.
-/
namespace Verif.Answers
open Verif.Feeds (maxAddr tauOf fieldsFrom blank)

abbrev Text := List Char

/-! ### passages for questions -/

/-- qap.cc 148-158: the addresses that are shown for a result, inside its container -/
def passage (window p q cp cq : Int) : Int × Int :=
  let start := if q - p + 1 < window then (if p - (window - (q - p + 1)) / 2 < cp then cp else p - (window - (q - p + 1)) / 2) else p
  let stop := start + (window - 1)
  (start, if stop > cq then cq else stop)

/-- qap.cc 83-95: the label and the question of a line, or nothing for a weird one -/
def questionLine (line : Text) : Option (Text × Text) :=
  let sep := if '\t' ∈ line then '\t' else ' '
  if sep ∉ line then none
  else
    let label := line.takeWhile (· != sep)
    let question := line.dropWhile (· != sep)
    if label = [] ∨ question = [] then none else some (label, question)

/-- qap.cc 96-111: the query for a question -/
def queryOf (stop : Text → Bool) (split : Text → List Text) (question : Text) : Text :=
  match (split question).filter (fun w => !stop w) with
  | k :: k' :: ks => k ++ (k :: k' :: ks).flatMap (fun w => ' ' :: w)
  | _ => question

/-- qap.cc 78-115: the queue of labels and the queries by label, or nothing when the program ends for a weird line -/
def readQuestions (query : Text → Text) : List Text → List Text → (Text → Text) → Option (List Text × (Text → Text))
  | [], queue, queries => some (queue, queries)
  | l :: ls, queue, queries =>
    match questionLine l with
    | none => none
    | some (label, question) => readQuestions query ls (queue ++ [label]) fun x => if x = label then query question else queries x

/-- qap.cc 124-141: what the threads take from the queue: a label and its query -/
def tasks (query : Text → Text) (ls : List Text) : Option (List (Text × Text)) :=
  (readQuestions query ls [] fun _ => []).map fun r => r.1.map fun label => (label, r.2 label)

/-- qap.cc 116-121 -/
def clean (s : Text) : Text := s.map fun c => if c = '\n' ∨ c = '\t' then ' ' else c

/-- qap.cc 145-167: the lines for a label, with rank and passage -/
def answerLines (window : Int) (translate : Int → Int → Text) (label : Text) : Nat → List ((Int × Int) × (Int × Int)) → List (Text × Nat × Text)
  | _, [] => []
  | rank, (r, c) :: rs =>
    let w := passage window r.1 r.2 c.1 c.2
    (label, rank, clean (translate w.1 w.2)) :: answerLines window translate label (rank + 1) rs

/-! ### runs for topics -/

/-- mt.cc 93-103: a line for each result that has a name in it, with its rank and the place of the name -/
def topicFrom (ids : List (Int × Int)) : Nat → List (Int × Int) → List (Nat × (Int × Int))
  | _, [] => []
  | i, c :: cs =>
    let id := tauOf ids c.1
    if id.2 ≤ c.2 then (i + 1, id) :: topicFrom ids (i + 1) cs else topicFrom ids (i + 1) cs

/-- mt.cc 88-104: a line that is made up (nothing here) when there are no results -/
def topic (ids results : List (Int × Int)) : List (Nat × Option (Int × Int)) :=
  if results = [] then [(1, none)] else (topicFrom ids 0 results).map fun l => (l.1, some l.2)

/-! ### texts of passages -/

/-- dagstuhl.cc 24-43: the line with the text of the passage that its third field names, from its fifth token on; nothing when it is undefined -/
def withText (passagesOf : Text → List (Int × Int)) (translate : Int → Int → Text) (line : Text) : Option Text :=
  match (fieldsFrom [] line)[2]? with
  | none => none
  | some name =>
    let r := tauOf (passagesOf name) 0
    if r.1 + 4 > maxAddr then none else some (line ++ '\t' :: blank (translate (r.1 + 4) r.2) ++ ['\n'])

end Verif.Answers
