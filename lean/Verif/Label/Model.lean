import Verif.Text.Spec
import Verif.Hopper.Model
/-
  Model of the labels of foragers: meadowlark/forager.cc and the part of
  meadowlark/tf-idf_stats.cc that reads them.

  A position in a string is modelled by the bytes from there on, `none` is `return false`.  A `consume`
  that fails leaves the white space before it in the model; what follows it always skips white space.
-/
namespace Verif.Label
open Verif.Text Verif.Hopper

/-- `static const char hex[]` (`meadowlark/forager.cc:111`) -/
def hexDigit (n : UInt8) : UInt8 := if n < 10 then 0x30 + n else 0x61 + (n - 10)

/-- `meadowlark/forager.cc:85-120`: one byte of a string -/
def escape (c : UInt8) : Text :=
  if c = 0x22 then [0x5C, 0x22]
  else if c = 0x5C then [0x5C, 0x5C]
  else if c = 0x08 then [0x5C, 0x62]
  else if c = 0x0C then [0x5C, 0x66]
  else if c = 0x0A then [0x5C, 0x6E]
  else if c = 0x0D then [0x5C, 0x72]
  else if c = 0x09 then [0x5C, 0x74]
  else if c < 0x20 then [0x5C, 0x75, 0x30, 0x30, hexDigit (c / 16), hexDigit (c % 16)]
  else [c]

/-- `meadowlark/forager.cc:82-122` `append_escaped_json_string` -/
def quote (s : Text) : Text := 0x22 :: s.flatMap escape ++ [0x22]

/-- `"name"` -/
def nameKey : Text := [0x6E, 0x61, 0x6D, 0x65]
/-- `"tag"` -/
def tagKey : Text := [0x74, 0x61, 0x67]
/-- `"parameters"` -/
def paramsKey : Text := [0x70, 0x61, 0x72, 0x61, 0x6D, 0x65, 0x74, 0x65, 0x72, 0x73]

/-- `meadowlark/forager.cc:392-401`: the parameters; those of a `std::map`, in its order -/
def showParams : Bool → List (Text × Text) → Text
  | _, [] => []
  | first, (k, v) :: l =>
    (if first then [] else [0x2C, 0x0A]) ++ [0x20, 0x20, 0x20, 0x20] ++ quote k ++ [0x3A, 0x20] ++ quote v ++ showParams false l

/-- `meadowlark/forager.cc:383-405` `forager2json` -/
def forager2json (name tag : Text) (params : List (Text × Text)) : Text :=
  [0x7B, 0x0A, 0x20, 0x20, 0x22] ++ nameKey ++ [0x22, 0x3A, 0x20] ++ quote name ++
    [0x2C, 0x0A, 0x20, 0x20, 0x22] ++ tagKey ++ [0x22, 0x3A, 0x20] ++ quote tag ++
    [0x2C, 0x0A, 0x20, 0x20, 0x22] ++ paramsKey ++ [0x22, 0x3A, 0x20, 0x7B, 0x0A] ++ showParams true params ++
    [0x0A, 0x20, 0x20, 0x7D, 0x0A, 0x7D, 0x0A]

/-- `std::isspace`, in the "C" locale -/
def isSpace (c : UInt8) : Bool := c == 0x20 || (0x09 ≤ c && c ≤ 0x0D)

/-- `meadowlark/forager.cc:126-129` `skip_nulls` -/
def skipNulls (s : Text) : Text := s.dropWhile fun c => c == 0

/-- `meadowlark/forager.cc:131-134` `skip_ws` -/
def skipWs (s : Text) : Text := s.dropWhile isSpace

/-- `meadowlark/forager.cc:136-147` `consume`, `expect` -/
def consume (s : Text) (c : UInt8) : Option Text :=
  match skipWs s with
  | [] => none
  | d :: s => if d = c then some s else none

/-- `meadowlark/forager.cc:149-157` `hexval`; `none` is -1 -/
def hexVal (c : UInt8) : Option Nat :=
  if 0x30 ≤ c ∧ c ≤ 0x39 then some (c - 0x30).toNat
  else if 0x61 ≤ c ∧ c ≤ 0x66 then some (10 + (c - 0x61).toNat)
  else if 0x41 ≤ c ∧ c ≤ 0x46 then some (10 + (c - 0x41).toNat)
  else none

/-- `meadowlark/forager.cc:202-214`: a byte from four digits -/
def hexByte (h0 h1 h2 h3 : UInt8) : Option UInt8 :=
  match hexVal h0, hexVal h1, hexVal h2, hexVal h3 with
  | some a, some b, some c, some d =>
    let code := a * 4096 + b * 256 + c * 16 + d
    if code ≤ 255 then some (UInt8.ofNat code) else some 0x3F
  | _, _, _, _ => none

/-- `meadowlark/forager.cc:165-226`: from after the opening quote; `r` is what has been read -/
def parseBody : Text → Text → Option (Text × Text)
  | [], _ => none
  | 0x22 :: s, r => some (r, s)
  | 0x5C :: 0x22 :: s, r => parseBody s (r ++ [0x22])
  | 0x5C :: 0x5C :: s, r => parseBody s (r ++ [0x5C])
  | 0x5C :: 0x2F :: s, r => parseBody s (r ++ [0x2F])
  | 0x5C :: 0x62 :: s, r => parseBody s (r ++ [0x08])
  | 0x5C :: 0x66 :: s, r => parseBody s (r ++ [0x0C])
  | 0x5C :: 0x6E :: s, r => parseBody s (r ++ [0x0A])
  | 0x5C :: 0x72 :: s, r => parseBody s (r ++ [0x0D])
  | 0x5C :: 0x74 :: s, r => parseBody s (r ++ [0x09])
  | 0x5C :: 0x75 :: h0 :: h1 :: h2 :: h3 :: s, r => match hexByte h0 h1 h2 h3 with
    | some c => parseBody s (r ++ [c])
    | none => none
  | c :: s, r => if c = 0x5C ∨ c < 0x20 then none else parseBody s (r ++ [c])

/-- `meadowlark/forager.cc:159-227` `parse_string` -/
def parseString (s : Text) : Option (Text × Text) :=
  match skipWs s with
  | [] => none
  | c :: s => if c = 0x22 then parseBody s [] else none

/-- `(*parameters)[k] = v`, of a `std::map` as a list of its entries; the order of the entries is
not that of the map -/
def assign (k v : Text) : List (Text × Text) → List (Text × Text)
  | [] => [(k, v)]
  | (j, u) :: m => if j = k then (j, v) :: m else (j, u) :: assign k v m

/-- `meadowlark/forager.cc:361-376`.  Every round passes over at least one byte, so the length of the
text bounds them. -/
def paramsLoop : Nat → Text → List (Text × Text) → Option (List (Text × Text) × Text)
  | 0, _, _ => none
  | fuel + 1, s, m => do
    let (k, s) ← parseString s
    let s ← consume s 0x3A
    let (v, s) ← parseString s
    let m := assign k v m
    match consume s 0x7D with
    | some s => return (m, s)
    | none =>
      let s ← consume s 0x2C
      paramsLoop fuel s m

/-- `meadowlark/forager.cc:352-377` `parse_parameters_object` -/
def parseParams (s : Text) (m : List (Text × Text)) : Option (List (Text × Text) × Text) := do
  let s ← consume s 0x7B
  match consume s 0x7D with
  | some s => return (m, s)
  | none => paramsLoop (s.length + 1) s m

/-- what has been read: `*name`, `saw_name`, `*tag`, `*parameters` -/
structure Read where
  name : Text := []
  sawName : Bool := false
  tag : Text := []
  params : List (Text × Text) := []

/-- `meadowlark/forager.cc:434-454`: the value of a key.  `skip` is `skip_value` (330-350), which passes
over a value of any other key; it is a parameter. -/
def readValue (skip : Text → Option Text) (key s : Text) (r : Read) : Option (Read × Text) :=
  if key = nameKey then (parseString s).map fun (n, s) => ({ r with name := n, sawName := true }, s)
  else if key = tagKey then (parseString s).map fun (t, s) => ({ r with tag := t }, s)
  else if key = paramsKey then
    match skipWs s with
    | 0x7B :: _ => (parseParams s r.params).map fun (m, s) => ({ r with params := m }, s)
    | _ => (skip s).map fun s => (r, s)
  else (skip s).map fun s => (r, s)

/-- `meadowlark/forager.cc:427-461` -/
def readLoop (skip : Text → Option Text) : Nat → Text → Read → Option (Read × Text)
  | 0, _, _ => none
  | fuel + 1, s, r => do
    let (key, s) ← parseString s
    let s ← consume s 0x3A
    let (r, s) ← readValue skip key s r
    match consume s 0x7D with
    | some s => return (r, s)
    | none =>
      let s ← consume s 0x2C
      readLoop skip fuel s r

/-- `meadowlark/forager.cc:409-485` `json2forager` -/
def json2forager (skip : Text → Option Text) (json : Text) : Option (Text × Text × List (Text × Text)) := do
  let s ← consume json 0x7B
  let (r, s) ← match consume s 0x7D with
    | some s => some ({}, s)
    | none => readLoop skip (s.length + 1) s {}
  let s := skipNulls (skipWs s)
  if s ≠ [] then none
  else if ¬ r.sawName then none
  else return (r.name, r.tag, r.params)

/-- `"tf-idf"` -/
def tfIdf : Text := [0x74, 0x66, 0x2D, 0x69, 0x64, 0x66]

/-- `meadowlark/forager.cc:19-28` `forager_label` -/
def foragerLabel (name tag : Text) : Text :=
  let combined := if name ≠ [] then name ++ [0x3A] else []
  let combined := if tag ≠ [] then combined ++ tag ++ [0x3A] else combined
  if combined = [] then tfIdf ++ [0x3A] else combined

/-- `"gcl"` -/
def gclKey : Text := [0x67, 0x63, 0x6C]

/-- `meadowlark/tf-idf_stats.cc:41-50`: the parameters of the label that was found for `recipe` -/
def statsParameters (skip : Text → Option Text) (recipe json : Text) : Option (List (Text × Text)) :=
  match json2forager skip json with
  | none => none
  | some (name, tag, params) =>
    if name ≠ tfIdf ∨ tag ≠ recipe ∨ (params.lookup gclKey).isNone then none else some params

/-- `meadowlark/tf-idf_stats.cc:18-50` `TfIdfStats::make`, up to where it has the parameters: `H` has the
annotations of the feature of `"@" + label`, `read` is `translate`.  `some none` is `return nullptr`, `none`
a fault of the hopper or of `read`. -/
def statsMake (skip : Text → Option Text) (recipe : Text) (H : Hopper.Obj) (read : Int → Int → Option Text) :
    Option (Option (List (Text × Text))) :=
  match H.tau (minfinity + 1) H.init with
  | none => none
  | some (r, _) =>
    if r.p = maxfinity then some none
    else (read r.p r.q).map (statsParameters skip recipe)

end Verif.Label
