import Verif.Props.Query
/-
  Model of `already_appended` in `meadowlark/meadowlark.cc`.

  Bytes are written as characters, as in the model of the query language.
-/
namespace Verif.Paths
open Verif.Hopper Verif.Gcl Verif.Props

/-- `meadowlark/meadowlark.cc:70-75` `normalized_path` -/
def normalized (filename : List Char) : List Char :=
  if '/' ∈ filename then filename else '.' :: '/' :: filename

/-- the loop of `gcl_string` (`meadowlark/meadowlark.cc:79-83`) -/
def escape : List Char → List Char
  | [] => []
  | c :: cs => if c = '\\' ∨ c = '"' then '\\' :: c :: escape cs else c :: escape cs

/-- `meadowlark/meadowlark.cc:77-86` `gcl_string` -/
def gclString (s : List Char) : List Char := '"' :: escape s ++ ['"']

/-- `std::isspace` in the "C" locale -/
def isSpace (c : Char) : Bool := c == ' ' || c == '\t' || c == '\n' || c == '\x0b' || c == '\x0c' || c == '\r'

/-- `meadowlark/meadowlark.cc:88-103` `path_match`.  (The loop before the last return changes nothing that is read.) -/
def pathMatch (text path : List Char) : Bool :=
  let t := text.dropWhile isSpace
  if t.take path.length = path then
    match t.drop path.length with
    | [] => true
    | c :: _ => isSpace c
  else false

/-- the loop `meadowlark/meadowlark.cc:168-175`; `hit` is the test in it -/
def look {σ : Type} (tau : Int → M σ Ann) (hit : Ann → Bool) : Nat → Int → M σ Bool
  | 0, _ => ub
  | n + 1, k => do
    let r ← tau k
    if r.p < maxfinity then
      if hit r then return true
      else do
        let k' ← ck (r.p + 1)
        look tau hit n k'
    else return false

/-- `meadowlark/meadowlark.cc:163-164`: the query -/
def query (path : List Char) : List Char := ['(', '>', '>', ' ', '/', ' '] ++ gclString path ++ [')']

/-- `meadowlark/meadowlark.cc:156-177` `already_appended`: what it sets `appended` to, or nothing if it fails -/
def alreadyAppended (ix : Index) (split : List Char → List (List Char)) (count : List Char → Int)
    (translate : Int → Int → List Char) (filename : List Char) : Option Bool :=
  let path := normalized filename
  match gclHopper ix split count (query path) with
  | none => none
  | some H => (look H.tau (fun a => pathMatch (translate a.p a.q) path) loopFuel (minfinity + 1) H.init).map (·.1)

end Verif.Paths
