import Verif.Settings.Model
/-
  Model of the command that weighs terms (apps/tf-idf.cc), from its arguments to what it leaves in a burrow, with the order in which `tf_idf_annotations` (src/ranking.cc) commits annotations and sets parameters.

  What the weights are is C67; that parameters are kept is C69.  Here a burrow has parameters and the way in which its terms were last weighed.  That the annotations of an earlier command are still there is not in
  the model.
-/
namespace Verif.Weights
open Verif.Settings (Text Params put stemmerKey containerKey idKey statisticsKey)

def unstemmedKey : Text := ['u', 'n', 's', 't', 'e', 'm', 'm', 'e', 'd']
def idfKey : Text := ['i', 'd', 'f']
def rsjKey : Text := ['r', 's', 'j']

/-- core.cc 18-23 -/
def okay (b : Bool) : Text := if b then ['y', 'e', 's'] else ['n', 'o']

/-- how terms were weighed: by which stemmer, of which documents, whether also as they are, and by which weights -/
structure Weighed where
  stemmer : Text
  documents : Text
  unstemmed : Bool
  idf : Bool
  rsj : Bool
deriving DecidableEq

structure Burrow where
  params : Params
  weighed : Option Weighed

/-- what is around the command: the names of stemmers, which queries can be understood, which parameters can be set, and whether annotations can be committed -/
structure World where
  stemmer : Text → Option Text
  good : Text → Bool
  sets : Text → Bool
  commits : Bool

/-- dna.h 9 -/
def defaultBurrow : Text := ['t', 'h', 'e', '.', 'b', 'u', 'r', 'r', 'o', 'w']

def helpOption : Text := ['-', '-', 'h', 'e', 'l', 'p']
def burrowOption (a : Text) : Bool := a == ['-', 'b'] || a == ['-', '-', 'b', 'u', 'r', 'r', 'o', 'w']
def fullOption (a : Text) : Bool := a == ['-', 'f'] || a == ['-', '-', 'f', 'u', 'l', 'l']

/-- tf-idf.cc 23-28: the burrow and the arguments after it (`argc > 2` is two arguments or more) -/
def takeBurrow : List Text → Text × List Text
  | o :: b :: rest => if burrowOption o then (b, rest) else (defaultBurrow, o :: b :: rest)
  | args => (defaultBurrow, args)

/-- tf-idf.cc 32-38 -/
def takeFull : List Text → Bool × List Text
  | o :: a :: rest => if fullOption o then (true, a :: rest) else (false, o :: a :: rest)
  | args => (false, args)

/-- set a parameter and go on, or end with a status -/
def setting (w : World) (status : Int) (k v : Text) (s : Burrow) (next : Burrow → Int × Burrow) : Int × Burrow :=
  if w.sets k then next { s with params := put k v s.params } else (status, s)

/-- ranking.cc 1090-1107: after the annotations were committed -/
def describe (w : World) (unstemmed idf rsj : Bool) (s : Burrow) : Int × Burrow :=
  setting w 1 unstemmedKey (okay unstemmed) s fun s =>
    setting w 1 idfKey (okay idf) s fun s =>
      setting w 1 rsjKey (okay rsj) s fun s =>
        setting w 1 statisticsKey ['i', 'd', 'f'] s fun s => (0, s)

/-- ranking.cc 962-1108: `tf_idf_annotations`, for a stemmer and documents that were set before; without weights to find it does nothing (965-966) -/
def weigh (w : World) (stemmer documents : Text) (unstemmed idf rsj : Bool) (s : Burrow) : Int × Burrow :=
  if !(idf || rsj) then (0, s)
  else if !w.good documents then (1, s)
  else if !w.commits then (1, s)
  else describe w unstemmed idf rsj { s with weighed := some ⟨stemmer, documents, unstemmed, idf, rsj⟩ }

/-- tf-idf.cc 63-97: with a burrow that could be opened -/
def onBurrow (w : World) (full : Bool) (name container id : Text) (s : Burrow) : Int × Burrow :=
  setting w 1 stemmerKey name s fun s =>
    if !w.good container then (1, s)
    else setting w (-1) containerKey container s fun s =>
      if id = [] then weigh w name container full full true s
      else if !w.good id then (1, s)
      else setting w 1 idKey id s (weigh w name container full full true)

abbrev Disk := Text → Option Burrow

/-- tf-idf.cc 48-62, and what is on the disk after it -/
def run (w : World) (burrow : Text) (full : Bool) (st container id : Text) (d : Disk) : Int × Disk :=
  match w.stemmer st with
  | none => (1, d)
  | some name =>
    match d burrow with
    | none => (1, d)
    | some s =>
      let r := onBurrow w full name container id s
      (r.1, fun b => if b = burrow then some r.2 else d b)

/-- tf-idf.cc 13-47: the arguments after the name of the program -/
def tfIdf (w : World) (args : List Text) (d : Disk) : Int × Disk :=
  if args = [helpOption] then (0, d)
  else
    let b := takeBurrow args
    let f := takeFull b.2
    match f.2 with
    | [st, c] => run w b.1 f.1 st c [] d
    | [st, c, id] => run w b.1 f.1 st c id d
    | _ => (1, d)

/-! ### specification -/

/-- a command as its usage has it: perhaps a burrow, perhaps `--full`, a stemmer, documents, perhaps names (tf-idf.cc 6-11) -/
structure Request where
  burrow : Option Text
  full : Bool
  stemmer : Text
  documents : Text
  names : Option Text

def Request.args (r : Request) : List Text :=
  (match r.burrow with | some b => [['-', '-', 'b', 'u', 'r', 'r', 'o', 'w'], b] | none => []) ++ (if r.full then [['-', '-', 'f', 'u', 'l', 'l']] else []) ++ [r.stemmer, r.documents] ++ r.names.toList

end Verif.Weights
