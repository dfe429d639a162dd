import Verif.Label.Model
/-
  Model of how a label passes over what it does not know: `skip_value` of meadowlark/forager.cc.

  As in Label/Model.lean a position in a string is modelled by the bytes from there on and `none` is
  `return false`: after it `json2forager` returns false, so what `*i` is then does not matter.
-/
namespace Verif.Member
open Verif.Text Verif.Label

/-- `std::isdigit` -/
def isDigit (c : UInt8) : Bool := 0x30 ≤ c && c ≤ 0x39

/-- `while (*i < s.size() && std::isdigit(…))` with `any`, `frac` or `exp` (`meadowlark/forager.cc:235-243`,
`247-255`, `262-270`): some digits -/
def digits (s : Text) : Option Text := if s.takeWhile isDigit = [] then none else some (s.dropWhile isDigit)

/-- `meadowlark/forager.cc:245-256`: a fraction, if there is one -/
def skipFraction : Text → Option Text
  | 0x2E :: s => digits s
  | s => some s

/-- `meadowlark/forager.cc:260-261`: the sign of an exponent -/
def skipSign : Text → Text
  | c :: s => if c = 0x2B ∨ c = 0x2D then s else c :: s
  | [] => []

/-- `meadowlark/forager.cc:258-271`: an exponent, if there is one -/
def skipExponent : Text → Option Text
  | c :: s => if c = 0x65 ∨ c = 0x45 then digits (skipSign s) else some (c :: s)
  | [] => some []

/-- `meadowlark/forager.cc:229-274` `skip_number` -/
def skipNumber (s : Text) : Option Text := do
  let s ← digits (skipSign (skipWs s))
  let s ← skipFraction s
  skipExponent s

/-- `meadowlark/forager.cc:279-285`: the characters of the literal, one after the other -/
def matchLiteral : Text → Text → Option Text
  | [], s => some s
  | _ :: _, [] => none
  | l :: lit, c :: s => if c = l then matchLiteral lit s else none

/-- `meadowlark/forager.cc:276-287` `skip_literal` -/
def skipLiteral (s lit : Text) : Option Text := matchLiteral lit (skipWs s)

mutual
/-- `meadowlark/forager.cc:330-350` `skip_value`.  Of the calls below a call every second has fewer bytes
before it, so twice the length of the text bounds how deep they are. -/
def skipVal : Nat → Text → Option Text
  | 0, _ => none
  | fuel + 1, s =>
    match skipWs s with
    | [] => none
    | c :: t =>
      if c = 0x22 then (parseString (c :: t)).map Prod.snd
      else if c = 0x7B then
        match consume t 0x7D with
        | some t => some t
        | none => skipMembers fuel t
      else if c = 0x5B then
        match consume t 0x5D with
        | some t => some t
        | none => skipElements fuel t
      else if c = 0x74 then skipLiteral (c :: t) [0x74, 0x72, 0x75, 0x65]
      else if c = 0x66 then skipLiteral (c :: t) [0x66, 0x61, 0x6C, 0x73, 0x65]
      else if c = 0x6E then skipLiteral (c :: t) [0x6E, 0x75, 0x6C, 0x6C]
      else skipNumber (c :: t)
/-- `meadowlark/forager.cc:291-305` `skip_array`: the loop (297-304) -/
def skipElements : Nat → Text → Option Text
  | 0, _ => none
  | fuel + 1, s =>
    match skipVal fuel s with
    | none => none
    | some s =>
      match consume s 0x5D with
      | some s => some s
      | none => (consume s 0x2C).bind (skipElements fuel)
/-- `meadowlark/forager.cc:308-328` `skip_object`: the loop (314-327) -/
def skipMembers : Nat → Text → Option Text
  | 0, _ => none
  | fuel + 1, s =>
    match parseString s with
    | none => none
    | some (_, s) =>
      match consume s 0x3A with
      | none => none
      | some s =>
        match skipVal fuel s with
        | none => none
        | some s =>
          match consume s 0x7D with
          | some s => some s
          | none => (consume s 0x2C).bind (skipMembers fuel)
end

/-- `meadowlark/forager.cc:330-350` `skip_value` -/
def skipValue (s : Text) : Option Text := skipVal (2 * s.length + 2) s

/-- `meadowlark/forager.cc:409-485` `json2forager`, with `skip_value` -/
def readLabel (json : Text) : Option (Text × Text × List (Text × Text)) := json2forager skipValue json

end Verif.Member
