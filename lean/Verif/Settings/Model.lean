import Verif.Feeds.Model
/-
  Model of the commands that set what a warren keeps (apps/set.cc) and count its terms (apps/tf-df.cc), with the part of src/ranking.cc and src/stats.cc that chooses what is counted.

  Parameters are a function from keys to values, where a key that was never set has the empty value (src/dna.cc 53-77); that they are kept is C69.  What is counted for given queries is C46 and C67.
-/
namespace Verif.Settings
open Verif.Feeds (fieldsFrom)

abbrev Text := List Char

abbrev Params := Text → Text

/-- `parameters[key] = value` (src/dna.cc 93, C69) -/
def put (k v : Text) (ps : Params) : Params := fun x => if x = k then v else ps x

def stemmerKey : Text := ['s', 't', 'e', 'm', 'm', 'e', 'r']
def containerKey : Text := ['c', 'o', 'n', 't', 'a', 'i', 'n', 'e', 'r']
def idKey : Text := ['i', 'd']
def contentKey : Text := ['c', 'o', 'n', 't', 'e', 'n', 't']
def fieldsKey : Text := ['f', 'i', 'e', 'l', 'd', 's']
def statisticsKey : Text := ['s', 't', 'a', 't', 'i', 's', 't', 'i', 'c', 's']

/-- what was counted: the terms of the solutions of a query, or those of fields in the solutions of a query -/
inductive Counted where
  | terms (documents : Text)
  | fields (documents : Text) (fields : List Text)
deriving DecidableEq

/-- what is around the command: the names of stemmers, which queries can be understood, which parameters can be set, and whether annotations can be committed -/
structure World where
  stemmer : Text → Option Text
  good : Text → Bool
  sets : Text → Bool
  commits : Bool

/-- a warren: its parameters and the annotations of the last count -/
structure Warren where
  params : Params
  counted : Option Counted

/-- set a parameter and go on, or end with a status -/
def setting (w : World) (status : Int) (k v : Text) (s : Warren) (next : Warren → Int × Warren) : Int × Warren :=
  if w.sets k then next { s with params := put k v s.params } else (status, s)

/-- ranking.cc 855-957: `tf_df_annotations` (which documents: 856-859, of the parameter `container`) -/
def countTerms (w : World) (s : Warren) : Int × Warren :=
  let query := s.params containerKey
  if query = [] then (1, s)
  else if !w.good query then (1, s)
  else if !w.commits then (1, s)
  else setting w 1 statisticsKey ['d', 'f'] { s with counted := some (.terms query) } fun s => (0, s)

/-- ranking.cc 1650-1654 and field_stats.cc 30-34: the fields of a parameter, split at tabs (without an empty one at the end, unless all is empty) -/
def split (v : Text) : List Text := if v = [] then [[]] else fieldsFrom [] v

/-- stats.cc 130-150: the documents whose fields are counted -/
def contentQuery (s : Warren) : Text := if s.params contentKey = [] then s.params containerKey else s.params contentKey

/-- ranking.cc 1643-1773: `tf_field_annotations` -/
def countFields (w : World) (s : Warren) : Int × Warren :=
  let query := contentQuery s
  if query = [] then (1, s)
  else if !w.good query then (1, s)
  else if !(split (s.params fieldsKey)).all w.good then (1, s)
  else if !w.commits then (1, s)
  else setting w 1 statisticsKey ['f', 'i', 'e', 'l', 'd'] { s with counted := some (.fields query (split (s.params fieldsKey))) } fun s => (0, s)

/-- tf-df.cc 98-110: the fields with tabs between them -/
def join : List Text → Text
  | [] => []
  | [f] => f
  | f :: fs => f ++ '\t' :: join fs

/-- tf-df.cc 76-121: after the settings that it always makes -/
def countRest (w : World) (rest : List Text) (s : Warren) : Int × Warren :=
  match rest with
  | [] => countTerms w s
  | [c] => if !w.good c then (1, s) else setting w 1 contentKey c s (countTerms w)
  | fs => if !fs.all w.good then (1, s) else setting w 1 fieldsKey (join fs) s (countFields w)

/-- tf-df.cc 28-122: the command with its arguments after the options -/
def tfDf (w : World) (args : List Text) (s : Warren) : Int × Warren :=
  match args with
  | st :: c :: id :: rest =>
    match w.stemmer st with
    | none => (1, s)
    | some name =>
      setting w 1 stemmerKey name s fun s =>
        if !w.good c then (1, s)
        else setting w (-1) containerKey c s fun s =>
          if !w.good id then (1, s)
          else setting w 1 idKey id s (countRest w rest)
  | _ => (1, s)

/-- set.cc 22-50: what it prints, its status and the parameters after it -/
def setCommand (w : World) (args : List Text) (s : Warren) : Option Text × Int × Warren :=
  match args with
  | [k] => (some (k ++ [' ', '=', ' ', '"'] ++ s.params k ++ ['"', '\n']), 0, s)
  | [k, v] => if w.sets k then (some (k ++ [' ', '=', ' ', '"'] ++ v ++ ['"', '\n']), 0, { s with params := put k v s.params }) else (none, 1, s)
  | _ => (none, 1, s)

/-! ### specification -/

/-- what a user asks for with the queries after the third: the terms of the documents, those of a part of them, or those of fields -/
def asked (container : Text) : List Text → Counted
  | [] => .terms container
  | [c] => .terms c
  | fs => .fields container fs

end Verif.Settings
