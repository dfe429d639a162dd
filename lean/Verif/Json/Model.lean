import Verif.Json.Spec
import Verif.Text.Fiver
/-
  Model of `src/json.cc`: storing JSON documents and turning stored text back into JSON.

  Parsing is `json::parse` of src/nlohmann.h; it is a parameter here.  That a parsed number
  is printed by `std::to_string` as sign, digits and six decimals is taken from the C++
  standard; the value has these in it (`Value.num`).
-/
namespace Verif.Json
open Verif.Text

/-- src/json.h 12-21: the tokens, from their third byte -/
def mark (t : UInt8) : Text := [0xEF, 0xB7, t]

/-- An appender and an annotator within a transaction (src/scribe.h): what was appended, and
the annotations made, with names in place of features. -/
structure Note where
  tag : Text
  p : Int
  q : Int
  v : Mark
deriving DecidableEq

structure Scribe where
  app : App := {}
  notes : List Note := []

/-- src/scribe.h `appender()->append` -/
def Scribe.append (T : Tokenizer) (st : Scribe) (s : Text) : Scribe × Int × Int :=
  ({ st with app := (st.app.append T s).1 }, (st.app.append T s).2)

/-- src/scribe.h `annotator()->annotate` -/
def Scribe.annotate (st : Scribe) (tag : Text) (p q : Int) (v : Mark) : Scribe :=
  { st with notes := st.notes ++ [⟨tag, p, q, v⟩] }

/-- `std::to_string` of a double: sign, whole part, point, six decimals -/
def printed (neg : Bool) (m : Nat) : Text :=
  (if neg then [0x2D] else []) ++ decimal (m / 10 ^ 6) ++ 0x2E ::
    [UInt8.ofNat (48 + m / 100000 % 10), UInt8.ofNat (48 + m / 10000 % 10),
     UInt8.ofNat (48 + m / 1000 % 10), UInt8.ofNat (48 + m / 100 % 10),
     UInt8.ofNat (48 + m / 10 % 10), UInt8.ofNat (48 + m % 10)]

/-- src/json.cc 19-25 `do_null` -/
def doNull (T : Tokenizer) (path : Text) (st : Scribe) : Scribe × Int × Int :=
  let a := st.append T [0x6E, 0x75, 0x6C, 0x6C]
  (a.1.annotate path a.2.1 a.2.2 .nan, a.2)

/-- src/json.cc 27-41 `do_boolean` -/
def doBoolean (T : Tokenizer) (b : Bool) (path : Text) (st : Scribe) : Scribe × Int × Int :=
  if b then
    let a := st.append T [0x74, 0x72, 0x75, 0x65]
    (a.1.annotate path a.2.1 a.2.2 .one, a.2)
  else
    let a := st.append T [0x66, 0x61, 0x6C, 0x73, 0x65]
    (a.1.annotate path a.2.1 a.2.2 .zero, a.2)

/-- src/json.cc 43-51 `do_number` -/
def doNumber (T : Tokenizer) (v : Int) (neg : Bool) (m : Nat) (path : Text) (st : Scribe) :
    Scribe × Int × Int :=
  let a := st.append T (mark 0x98 ++ printed neg m ++ mark 0x99)
  (a.1.annotate path a.2.1 a.2.2 (.double v), a.2)

/-- src/json.cc 53-60 `do_string` -/
def doString (T : Tokenizer) (s : Text) (path : Text) (st : Scribe) : Scribe × Int × Int :=
  let a := st.append T (mark 0x94 ++ s ++ mark 0x95)
  (a.1.annotate path a.2.1 a.2.2 .zero, a.2)

mutual
/-- src/json.cc 111-127 `do_json`, with `do_array` (62-82) and `do_object` (84-109).  The
errors of `append` and `annotate` are left out. -/
def doJson (T : Tokenizer) : Value → (path : Text) → Scribe → Scribe × Int × Int
  | .null, path, st => doNull T path st
  | .bool b, path, st => doBoolean T b path st
  | .num v neg m, path, st => doNumber T v neg m path st
  | .str s, path, st => doString T s path st
  | .arr es, path, st =>
    let a := st.append T (mark 0x92)
    let b := doElems T es 0 path a.1
    let c := b.append T (mark 0x93)
    (c.1.annotate path a.2.1 c.2.2 (.size es.toList.length), a.2.1, c.2.2)
  | .obj ms, path, st =>
    let a := st.append T (mark 0x90)
    let b := doMembers T ms true path a.1
    let c := b.append T (mark 0x91)
    (c.1.annotate path a.2.1 c.2.2 .zero, a.2.1, c.2.2)
/-- src/json.cc 68-77: the loop of `do_array`; `index` is 0 for the first element only -/
def doElems (T : Tokenizer) : Elems → (index : Nat) → (path : Text) → Scribe → Scribe
  | .nil, _, _, st => st
  | .cons v es, index, path, st =>
    let st := if index ≠ 0 then (st.append T (mark 0x97)).1 else st
    let a := doJson T v (path ++ 0x5B :: (decimal index ++ [0x5D, 0x3A])) st
    doElems T es (index + 1) path a.1
/-- src/json.cc 89-104: the loop of `do_object` -/
def doMembers (T : Tokenizer) : Members → (first : Bool) → (path : Text) → Scribe → Scribe
  | .nil, _, _, st => st
  | .cons k v ms, first, path, st =>
    let st := if first then st else (st.append T (mark 0x97)).1
    let st := (st.append T (mark 0x94 ++ k ++ mark 0x95 ++ mark 0x96)).1
    let a := doJson T v (path ++ k ++ [0x3A]) st
    doMembers T ms false path (a.1.annotate (k ++ [0x3A]) a.2.1 a.2.2 .zero)
end

/-- `char` is signed -/
def signed (c : UInt8) : Int := if c < 0x80 then c.toNat else (c.toNat : Int) - 256

/-- src/json.cc 129-146 `contains_utf8_noncharacters`, from a state on.  A string ends at a
NUL byte. -/
def containsGo : Nat → Text → Bool
  | _, [] => false
  | state, c :: r =>
    if c = 0 then false
    else if state = 0 then containsGo (if c = 0xEF then 1 else 0) r
    else if state = 1 then containsGo (if c = 0xB7 then 2 else 0) r
    else if signed c ≥ signed 0x90 ∨ signed c ≤ signed 0xAF then true
    else containsGo 0 r

def containsNonchar (s : Text) : Bool := containsGo 0 s

/-- src/json.cc 148-151 `noncharacter_next` -/
def noncharNext : Text → Bool
  | a :: b :: c :: _ => a == 0xEF && b == 0xB7 && c != 0 &&
      (decide (signed c ≥ signed 0x90) || decide (signed c ≥ signed 0xAF))
  | _ => false

/-- src/json.cc 153-165 `sanitize`; the number is that of bytes still to pass over -/
def sanitizeGo : Nat → Text → Text
  | _, [] => []
  | k + 1, _ :: r => sanitizeGo k r
  | 0, c :: r =>
    if c = 0 then []
    else if noncharNext (c :: r) then [0xEF, 0xBF, 0xBD] ++ sanitizeGo 2 r
    else c :: sanitizeGo 0 r

def sanitize (s : Text) : Text := sanitizeGo 0 s

/-- src/json.cc 168-182 `json_scribe`; `none` when the text cannot be parsed -/
def jsonScribe (parse : Text → Option Value) (T : Tokenizer) (s : Text) (st : Scribe) :
    Option (Scribe × Int × Int) :=
  match parse (if containsNonchar s then sanitize s else s) with
  | none => none
  | some v => some (doJson T v [0x3A] st)

/-- src/json.cc 193-196 `is_next` -/
def isNext (s : Text) (t : UInt8) : Bool :=
  match s with
  | a :: b :: c :: _ => a == 0xEF && b == 0xB7 && c == t
  | _ => false

/-- src/json.cc 203-256 `json_translate`: the loop.  The number is that of bytes still to
pass over (`skip`, 198-200).  A string ends at a NUL byte. -/
def translateGo : Nat → (inside pending : Bool) → Text → Text
  | _, _, _, [] => []
  | k + 1, inside, pending, _ :: r => translateGo k inside pending r
  | 0, inside, pending, c :: r =>
    if c = 0 then []
    else
      let leave := c != 0x20 && c != 0x0A && pending
      let space : Text := if leave then [0x20] else []
      let pending := if leave then false else pending
      space ++
        if isNext (c :: r) 0x90 then 0x7B :: translateGo 2 inside pending r
        else if isNext (c :: r) 0x91 then 0x7D :: translateGo 2 inside pending r
        else if isNext (c :: r) 0x92 then 0x5B :: translateGo 2 inside pending r
        else if isNext (c :: r) 0x93 then 0x5D :: translateGo 2 inside pending r
        else if isNext (c :: r) 0x94 then 0x22 :: translateGo 2 true pending r
        else if isNext (c :: r) 0x95 then 0x22 :: translateGo 2 false pending r
        else if isNext (c :: r) 0x96 then 0x3A :: translateGo 2 inside pending r
        else if isNext (c :: r) 0x97 then 0x2C :: translateGo 2 inside pending r
        else if isNext (c :: r) 0x98 || isNext (c :: r) 0x99 then translateGo 2 inside pending r
        else if c = 0x0A then translateGo 0 inside true r
        else if inside then
          if c = 0x22 then 0x5C :: 0x22 :: translateGo 0 inside pending r
          else if c = 0x5C then 0x5C :: 0x5C :: translateGo 0 inside pending r
          else c :: translateGo 0 inside pending r
        else c :: translateGo 0 inside pending r

/-- src/json.cc 203-256 `json_translate`; `JsonTxt::translate_` applies it to the stored text
(src/json_txt.cc 86-90) -/
def jsonTranslate (s : Text) : Text := translateGo 0 false false s

/-- src/json.cc 258-295 `json_encode` -/
def encodeByte (c : UInt8) : Text :=
  if c = 0x22 then [0x5C, 0x22]
  else if c = 0x5C then [0x5C, 0x5C]
  else if c = 0x08 then [0x5C, 0x62]
  else if c = 0x0C then [0x5C, 0x66]
  else if c = 0x0A then [0x5C, 0x6E]
  else if c = 0x0D then [0x5C, 0x72]
  else if c = 0x09 then [0x5C, 0x74]
  else if c < 0x20 then
    [0x5C, 0x75, 0x30, 0x30, if c < 0x10 then 0x30 else 0x31,
      let d := c.toNat % 16
      if d < 10 then UInt8.ofNat (0x30 + d) else UInt8.ofNat (0x61 + d - 10)]
  else [c]

def jsonEncode (s : Text) : Text := mark 0x94 ++ (s.map encodeByte).flatten ++ mark 0x95

end Verif.Json
