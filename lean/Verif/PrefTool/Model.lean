import Verif.Judge.Model
/-
  Model of apps/pref2train.cc: preferences between pairs of items are made into lines for training.

  The items of the warren are lists of tokens, each with the text from where it begins to where the next one does, in order; the query for an item is what C01
  says of `>>` and of phrases: the first item in which the words of the identifier are next to each other.  (Identifiers with quotes are not modelled.)
-/
namespace Verif.PrefTool

abbrev Text := List Char

/-! ### items -/

/-- a token: its feature as a word, and its text -/
abbrev Token := Text × Text

/-- the words of a phrase are next to each other somewhere -/
def hasPhrase (phrase : List Text) : List Text → Bool
  | [] => phrase.isPrefixOf []
  | w :: ws => phrase.isPrefixOf (w :: ws) || hasPhrase phrase ws

/-- pref2train.cc 26-28 -/
def clean (c : Char) : Char := if c = '\n' ∨ c = '\t' then ' ' else c

/-- pref2train.cc 8-30: `words` is the tokenizer; nothing when the item is not found.  (A phrase without words has no matches.) -/
def fetchText (words : Text → List Text) (items : List (List Token)) (identifier : Text) : Option Text :=
  if words identifier = [] then none
  else
    match items.find? fun item => hasPhrase (words identifier) (item.map (·.1)) with
    | none => none
    | some item => some (((item.drop 2).flatMap (·.2)).map clean)

/-! ### lines -/

/-- `line.find(" ")` and the text before and after it; nothing without a blank -/
def cut (line : Text) : Option (Text × Text) :=
  if ' ' ∈ line then some (line.takeWhile (· != ' '), (line.dropWhile (· != ' ')).drop 1) else none

/-- pref2train.cc 69-71 -/
def cleanQuestion (c : Char) : Char := if c = '\r' then ' ' else c

/-- pref2train.cc 60-73: nothing when a line is refused -/
def readQuestions : List Text → Option (List (Text × Text))
  | [] => some []
  | l :: ls =>
    match cut l with
    | none => none
    | some x => (readQuestions ls).map fun xs => (x.1, x.2.map cleanQuestion) :: xs

/-- pref2train.cc 72, 102, 147: `questions[topic]`, of a map that is filled in order -/
def questionOf (qs : List (Text × Text)) (topic : Text) : Option Text := (qs.reverse.find? fun x => x.1 == topic).map (·.2)

/-- pref2train.cc 95-148: the line for training that a preference gives; nothing for a bad preference -/
def training (qs : List (Text × Text)) (fetch : Text → Option Text) (line : Text) : Option Text :=
  match cut line with
  | none => none
  | some x =>
    match questionOf qs x.1 with
    | none => none
    | some question =>
      match cut x.2 with
      | none => none
      | some y =>
        match cut y.2 with
        | none => none
        | some z =>
          let best := z.2
          if y.1 = best ∨ z.1 = best then
            let worst := if y.1 = best then z.1 else y.1
            match fetch best with
            | none => none
            | some b =>
              match fetch worst with
              | none => none
              | some w => some (question ++ '\t' :: (b ++ '\t' :: (w ++ ['\n'])))
          else none

/-- pref2train.cc 88-149: the loop; whether the program ends with 0, and its output -/
def loop (qs : List (Text × Text)) (fetch : Text → Option Text) : Nat → List Text → Bool × Text
  | _, [] => (true, [])
  | bad, l :: ls =>
    if bad > 40 then (false, [])
    else
      match training qs fetch l with
      | none => loop qs fetch (bad + 1) ls
      | some t =>
        let r := loop qs fetch bad ls
        (r.1, t ++ r.2)

/-- pref2train.cc 60-151: both files -/
def main (questions preferences : Text) (fetch : Text → Option Text) : Bool × Text :=
  match readQuestions (Verif.Judge.lines questions) with
  | none => (false, [])
  | some qs => loop qs fetch 0 (Verif.Judge.lines preferences)

/-! ### specification -/

/-- a line at its tabs -/
def tabFields : Text → List Text
  | [] => [[]]
  | c :: t =>
    if c = '\t' then [] :: tabFields t
    else
      match tabFields t with
      | [] => [[c]]
      | f :: fs => (c :: f) :: fs

/-- a preference: the two items and whether the first one is better -/
structure Preference where
  topic : Text
  first : Text
  second : Text
  firstIsBest : Bool

def Preference.best (p : Preference) : Text := if p.firstIsBest then p.first else p.second
def Preference.worst (p : Preference) : Text := if p.firstIsBest then p.second else p.first

/-- the line of a preference -/
def Preference.line (p : Preference) : Text := p.topic ++ ' ' :: (p.first ++ ' ' :: (p.second ++ ' ' :: p.best))

def Plain (t : Text) : Prop := ' ' ∉ t ∧ '\n' ∉ t

def Preference.Good (p : Preference) : Prop := Plain p.topic ∧ Plain p.first ∧ Plain p.second

instance (t : Text) : Decidable (Plain t) := by unfold Plain; infer_instance
instance (p : Preference) : Decidable p.Good := by unfold Preference.Good; infer_instance

def questionsFile (qs : List (Text × Text)) : Text := qs.flatMap fun q => q.1 ++ ' ' :: (q.2 ++ ['\n'])
def preferencesFile (ps : List Preference) : Text := ps.flatMap fun p => p.line ++ ['\n']

/-- a number of lines that are bad -/
def badCount (qs : List (Text × Text)) (fetch : Text → Option Text) (ls : List Text) : Nat := ls.countP fun l => (training qs fetch l).isNone

end Verif.PrefTool
