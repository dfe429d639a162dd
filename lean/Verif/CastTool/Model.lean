import Verif.Tune.Model
import Verif.Judge.Model
import Verif.Names.Model
import Verif.RankTool.Model
/-
  Model of apps/trecdl21.cc, apps/treccast21.cc and apps/treccast22.cc: runs for questions, made by threads.

  The results for a query are given (the rankers are modelled apart, as far as they are).  The lines of trecdl21.cc (141-156) are not modelled. The stopwords are a set of words, and the words of a question are those of the
  tokenizer.
-/
namespace Verif.CastTool
open Verif.Names (decimal)

abbrev Text := List Char

/-! ### queries -/

/-- trecdl21.cc 87-98: the words, without stopwords when that is asked for, with blanks between them, or the question when there are none -/
def passageQuery (removeStops : Bool) (stop : Text → Bool) (words : List Text) (question : Text) : Text :=
  match words.filter fun w => !removeStops || !stop w with
  | [] => question
  | k :: ks => k ++ ks.flatMap fun w => ' ' :: w

/-- treccast21.cc 123-134, treccast22.cc 93-104: the loop begins with the first word, which is there already -/
def castQuery (stop : Text → Bool) (words : List Text) (question : Text) : Text :=
  let keywords := words.filter fun w => !stop w
  if keywords.length > 1 then keywords.headD [] ++ keywords.flatMap fun w => ' ' :: w else question

/-- treccast22.cc 157-162: first each stem has 0, then the weights of its terms are added.  (The map is in the order of the first terms here.) -/
def stemmed (stem : Text → Text) (weighted : List (Text × Rat)) : List (Text × Rat) :=
  weighted.foldl (fun m t => m.map fun x => if x.1 = stem t.1 then (x.1, x.2 + t.2) else x)
    (weighted.foldl (fun m t => if m.any (fun x => x.1 == stem t.1) then m.map (fun x => if x.1 = stem t.1 then (x.1, 0) else x) else m ++ [(stem t.1, 0)]) [])

/-! ### runs -/

/-- a result: the name, the score and the text of the passage, as printed -/
structure Result where
  docno : Text
  score : Text
  passage : Text

/-- treccast21.cc 139-144, treccast22.cc 109-114 -/
def clean (c : Char) : Char := if c = '\n' ∨ c = '\t' then ' ' else c

/-- treccast21.cc 241-249, treccast22.cc 173-181: a line of a run -/
def resultLine (passages : Bool) (label : Text) (rank : Nat) (r : Result) : Text :=
  label ++ [' ', 'Q', '0', ' '] ++ r.docno ++ ' ' :: (decimal rank ++ ' ' :: (r.score ++ ' ' :: ['c', 'l', 'a', 'c', 'l', 'a', 'r', 'k'] ++ (if passages then '\t' :: r.passage.map clean else [])))

/-- treccast21.cc 235-251, treccast22.cc 167-183: the lines for a question, from some rank on -/
def block (passages : Bool) (label : Text) : Nat → List Result → Text
  | _, [] => []
  | rank, r :: rs => resultLine passages label rank r ++ '\n' :: block passages label (rank + 1) rs

/-- treccast21.cc 194-275, treccast22.cc 124-191: the output of the threads.  That they take a question (202-211, 132-141) and print its lines (234-269, 166-185) under locks makes it
the pool of C95. -/
def output (passages : Bool) (results : Text → List Result) (labels : List Text) (threads : Nat) (schedule : List Nat) : Text :=
  (Tune.pool labels threads schedule).finished.flatMap fun l => block passages l 1 (results l)

/-- treccast21.cc 135-136, treccast22.cc 105-106: the question that a label has in the end -/
def questionOf (questions : List (Text × Text)) (label : Text) : Text := ((questions.reverse.find? fun q => q.1 == label).map (·.2)).getD []

/-- treccast21.cc 104-138 and 194-280, treccast22.cc 74-108 and 124-195: the whole run, with what is printed, and whether the program ends with 0; `answer` are the results for a
question.  The lines of the input are read as in the ranking program (C93). -/
def castRun (passages : Bool) (answer : Text → List Result) (input : Text) (threads : Nat) (schedule : List Nat) : Bool × Text :=
  match RankTool.readQueries (Judge.lines input) with
  | none => (false, [])
  | some qs => (true, output passages (fun l => answer (questionOf qs l)) (qs.map (·.1)) threads schedule)

/-- treccast21.cc 160-183: the results `i`, `i + 1`, … for each label in turn; nothing where `results` has none (undefined) -/
def dealFrom {ρ : Type} (n : Nat) (results : List ρ) : Nat → List Text → List (Text × Nat × Option ρ)
  | _, [] => []
  | i, l :: ls => ((List.range n).map fun r => (l, r + 1, results[i + r]?)) ++ dealFrom n results (i + n) ls

/-- treccast21.cc 154-184 -/
def deal {ρ : Type} (results : List ρ) (labels : List Text) : List (Text × Nat × Option ρ) :=
  if labels.length = 0 then []
  else
    let n := results.length / labels.length
    if n = 0 then [] else dealFrom n results 0 labels

/-! ### specification -/

/-- the words of a text, at blanks -/
def blanks : Text → List Text
  | [] => [[]]
  | c :: t =>
    if c = ' ' then [] :: blanks t
    else
      match blanks t with
      | [] => [[c]]
      | f :: fs => (c :: f) :: fs

/-- the label of a line of a run -/
def labelOf (line : Text) : Text := line.takeWhile (· != ' ')

/-- the lines for a question -/
def blockLines (passages : Bool) (label : Text) (rs : List Result) : List Text := rs.mapIdx fun i r => resultLine passages label (i + 1) r

def Result.Good (r : Result) : Prop := '\n' ∉ r.docno ∧ '\n' ∉ r.score

end Verif.CastTool
