import Verif.Judge.Model
import Verif.Names.Model
/-
  Model of apps/rank.cc: a file of queries, ranked by a pipeline, becomes a run in the format of TREC.

  Bytes are written as characters.  What `trec` does is the subject of C64: here it is a parameter that gives the names of the
  passages for a query, or fails.
-/
namespace Verif.RankTool
open Verif.Paths (isSpace)
open Verif.Judge (trecDocno lines)
open Verif.Names (decimal)

abbrev Text := List Char

/-! ### options -/

/-- rank.cc 30-34: the variables that options set -/
structure Options where
  verbose : Bool
  threads : Nat
  burrow : Text
  statsName : Text
  statsRecipe : Text
  deriving DecidableEq

/-- rank.cc 30-34 -/
def defaults : Options := ⟨false, 0, [], [], []⟩

/-- rank.cc 49: the value that `std::stoull` gives decimal digits -/
def digitsValue (ds : Text) : Nat := ds.foldl (fun n c => 10 * n + (c.toNat - 48)) 0

/-- rank.cc 49: the digits of `std::stoull` -/
def isDigit (c : Char) : Bool := 48 ≤ c.toNat && c.toNat ≤ 57

/-- rank.cc 45-53: `std::stoull` of the whole argument (in `"C"` locale): blanks, a sign, and digits; with a minus it wraps around;
too large a number is an exception -/
def threadCount (arg : Text) : Option Nat :=
  if arg.isEmpty || arg.head? == some '-' then none
  else
    let s := arg.dropWhile isSpace
    let negative := s.head? == some '-'
    let ds := if negative || s.head? == some '+' then s.drop 1 else s
    if ds.isEmpty || !ds.all isDigit then none
    else if digitsValue ds ≥ 18446744073709551616 then none
    else if negative then some ((18446744073709551616 - digitsValue ds) % 18446744073709551616) else some (digitsValue ds)

/-- rank.cc 73-80 -/
def statistics (arg : Text) (o : Options) : Options :=
  if ':' ∈ arg then { o with statsName := arg.takeWhile (· != ':'), statsRecipe := (arg.dropWhile (· != ':')).drop 1 }
  else { o with statsName := arg, statsRecipe := [] }

/-- rank.cc 36 -/
def minusV : Text := ['-', 'v']
/-- rank.cc 36 -/
def verboseFlag : Text := ['-', '-', 'v', 'e', 'r', 'b', 'o', 's', 'e']
/-- rank.cc 43 -/
def minusT : Text := ['-', 't']
/-- rank.cc 43 -/
def threadsFlag : Text := ['-', '-', 't', 'h', 'r', 'e', 'a', 'd', 's']
/-- rank.cc 63 -/
def minusB : Text := ['-', 'b']
/-- rank.cc 63 -/
def burrowFlag : Text := ['-', '-', 'b', 'u', 'r', 'r', 'o', 'w']
/-- rank.cc 70 -/
def minusS : Text := ['-', 's']
/-- rank.cc 70 -/
def statsFlag : Text := ['-', '-', 's', 't', 'a', 't', 's']
/-- rank.cc 71 -/
def statisticsFlag : Text := ['-', '-', 's', 't', 'a', 't', 'i', 's', 't', 'i', 'c', 's']

/-- rank.cc 35-86: the loop over the options; nothing when a number of threads is bad -/
def options : List Text → Options → Option (Options × List Text)
  | [], o => some (o, [])
  | a :: as, o =>
    if a = minusV ∨ a = verboseFlag then options as { o with verbose := true }
    else
      match as with
      | [] => some (o, [a])
      | b :: bs =>
        if a = minusT ∨ a = threadsFlag then
          match threadCount b with
          | none => none
          | some n => options bs { o with threads := n }
        else if a = minusB ∨ a = burrowFlag then options bs { o with burrow := b }
        else if a = minusS ∨ a = statsFlag ∨ a = statisticsFlag then options bs (statistics b o)
        else some (o, a :: b :: bs)

/-- rank.cc 93-98: the pipeline -/
def pipelineOf : List Text → Text
  | [] => []
  | [a] => a
  | a :: as => a ++ ' ' :: pipelineOf as

/-! ### queries -/

/-- rank.cc 119-131: the topic and the query of a line; the query begins with the separator -/
def splitQuery (line : Text) : Option (Text × Text) :=
  let sep := if '\t' ∈ line then '\t' else ' '
  if sep ∉ line then none
  else
    let topic := line.takeWhile (· != sep)
    let query := line.dropWhile (· != sep)
    if topic.isEmpty || query.isEmpty then none else some (topic, query)

/-- rank.cc 118-134: all the lines; nothing when one is refused -/
def readQueries : List Text → Option (List (Text × Text))
  | [] => some []
  | l :: ls =>
    match splitQuery l with
    | none => none
    | some x =>
      match readQueries ls with
      | none => none
      | some xs => some (x :: xs)

/-- rank.cc 132: `queries[topic]` -/
def queryOf (qs : List (Text × Text)) (topic : Text) : Text := ((qs.reverse.find? fun x => x.1 == topic).map (·.2)).getD []

/-! ### output -/

/-- rank.cc 157 -/
def fakeLine (topic : Text) : Text := topic ++ [' ', 'Q', '0', ' ', 'F', 'A', 'K', 'E', ' ', '1', ' ', '1', ' ', 'c', 'o', 't', 't', 'o', 'n', 't', 'a', 'i', 'l']

/-- rank.cc 161-164 -/
def resultLine (topic name : Text) (rank score : Nat) : Text :=
  topic ++ [' ', 'Q', '0', ' '] ++ trecDocno name ++ ' ' :: (decimal rank ++ ' ' :: (decimal score ++ ' ' :: ['c', 'o', 't', 't', 'o', 'n', 't', 'a', 'i', 'l']))

/-- rank.cc 160-165: the loop over the names, from the rank `i + 1` -/
def resultLines (topic : Text) (n : Nat) : Nat → List Text → List Text
  | _, [] => []
  | i, d :: ds => resultLine topic d (i + 1) (n + 1 - (i + 1)) :: resultLines topic n (i + 1) ds

/-- rank.cc 150-166: what is printed for a topic -/
def block (topic : Text) (names : List Text) : List Text :=
  if names.isEmpty then [fakeLine topic] else resultLines topic names.length 0 names

/-- rank.cc 115-168: the lines that are printed, or nothing and a failure; `rank` is what `trec` gives for a query (C64), or its failure -/
def run (file : Text) (rank : Option (Text → List Text)) : Option (List Text) :=
  match readQueries (lines file) with
  | none => none
  | some qs =>
    match rank with
    | none => none
    | some r => some (qs.flatMap fun x => block x.1 (r (queryOf qs x.1)))

/-! ### specification -/

/-- an option, as it may be written, and what it sets -/
inductive Written : List Text → (Options → Options) → Prop
  | verbose {f} : f = minusV ∨ f = verboseFlag → Written [f] fun o => { o with verbose := true }
  | threads {f t n} : f = minusT ∨ f = threadsFlag → threadCount t = some n → Written [f, t] fun o => { o with threads := n }
  | burrow {f t} : f = minusB ∨ f = burrowFlag → Written [f, t] fun o => { o with burrow := t }
  | named {f name} : f = minusS ∨ f = statsFlag ∨ f = statisticsFlag → ':' ∉ name → Written [f, name] fun o => { o with statsName := name, statsRecipe := [] }
  | recipe {f name recipe} : f = minusS ∨ f = statsFlag ∨ f = statisticsFlag → ':' ∉ name →
      Written [f, name ++ ':' :: recipe] fun o => { o with statsName := name, statsRecipe := recipe }

inductive AllWritten : List Text → (Options → Options) → Prop
  | nil : AllWritten [] id
  | cons {a f as g} : Written a f → AllWritten as g → AllWritten (a ++ as) (g ∘ f)

/-- a word that is no option -/
def NotOption (a : Text) : Prop :=
  a ≠ minusV ∧ a ≠ verboseFlag ∧ a ≠ minusT ∧ a ≠ threadsFlag ∧ a ≠ minusB ∧ a ≠ burrowFlag ∧ a ≠ minusS ∧ a ≠ statsFlag ∧ a ≠ statisticsFlag

/-- the fields of a line, as the programs that read runs have it: what is between blanks -/
def wordsFrom (cur : Text) : Text → List Text
  | [] => if cur.isEmpty then [] else [cur]
  | c :: t => if isSpace c then (if cur.isEmpty then wordsFrom [] t else cur :: wordsFrom [] t) else wordsFrom (cur ++ [c]) t

def wordsOf (line : Text) : List Text := wordsFrom [] line

/-- not empty, and without blanks -/
def IsWord (t : Text) : Prop := t ≠ [] ∧ ∀ c ∈ t, isSpace c = false

end Verif.RankTool
