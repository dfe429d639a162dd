import Verif.Json.Spec
/-
  Specification: any JSON text (RFC 8259, exponents included), and what an object says of a forager.

  Nothing here refers to how labels are read.
-/
namespace Verif.Member
open Verif.Text Verif.Json

/-- RFC 8259, 6: an exponent, or none -/
def Exponent (x : Text) : Prop :=
  x = [] ∨ ∃ e sign ds, x = e :: (sign ++ ds) ∧ (e = 0x65 ∨ e = 0x45) ∧ (sign = [] ∨ sign = [0x2B] ∨ sign = [0x2D]) ∧
    ds ≠ [] ∧ ∀ d ∈ ds, Digit d

/-- RFC 8259, 6: a number -/
def IsNumber (x : Text) : Prop :=
  ∃ sign w f e : Text, x = sign ++ w ++ f ++ e ∧ (sign = [] ∨ sign = [0x2D]) ∧
    w ≠ [] ∧ (∀ d ∈ w, Digit d) ∧ (w.head? = some 0x30 → w = [0x30]) ∧
    (f = [] ∨ ∃ ds, f = 0x2E :: ds ∧ ds ≠ [] ∧ ∀ d ∈ ds, Digit d) ∧ Exponent e

mutual
/-- RFC 8259, 3-7: the text denotes the value, except that a number may be any number: none is of
concern to a label -/
inductive Writes : Text → Value → Prop
  | null : Writes [0x6E, 0x75, 0x6C, 0x6C] .null
  | true : Writes [0x74, 0x72, 0x75, 0x65] (.bool true)
  | false : Writes [0x66, 0x61, 0x6C, 0x73, 0x65] (.bool false)
  | num {x v neg m} : IsNumber x → Writes x (.num v neg m)
  | str {x s} : Chars x s → Writes (0x22 :: (x ++ [0x22])) (.str s)
  | arr0 {a} : Spaces a → Writes (0x5B :: (a ++ [0x5D])) (.arr .nil)
  | arr {x es} : Items x es → Writes (0x5B :: (x ++ [0x5D])) (.arr es)
  | obj0 {a} : Spaces a → Writes (0x7B :: (a ++ [0x7D])) (.obj .nil)
  | obj {x ms} : Pairs x ms → Writes (0x7B :: (x ++ [0x7D])) (.obj ms)
/-- values with commas between -/
inductive Items : Text → Elems → Prop
  | one {a x b v} : Spaces a → Writes x v → Spaces b → Items (a ++ x ++ b) (.cons v .nil)
  | more {a x b v y es} : Spaces a → Writes x v → Spaces b → Items y es →
      Items (a ++ x ++ b ++ 0x2C :: y) (.cons v es)
/-- members with commas between -/
inductive Pairs : Text → Members → Prop
  | one {a k b c x d key v} : Spaces a → Chars k key → Spaces b → Spaces c → Writes x v → Spaces d →
      Pairs (a ++ 0x22 :: (k ++ [0x22]) ++ b ++ 0x3A :: (c ++ x ++ d)) (.cons key v .nil)
  | more {a k b c x d key v y ms} : Spaces a → Chars k key → Spaces b → Spaces c → Writes x v →
      Spaces d → Pairs y ms →
      Pairs (a ++ 0x22 :: (k ++ [0x22]) ++ b ++ 0x3A :: (c ++ x ++ d ++ 0x2C :: y)) (.cons key v ms)
end

/-- RFC 8259, 2: a JSON text, with white space around it -/
def IsText (x : Text) (v : Value) : Prop :=
  ∃ a y b, x = a ++ y ++ b ∧ Spaces a ∧ Writes y v ∧ Spaces b

/-- the value is a string -/
def IsStr (v : Value) : Prop := ∃ s, v = .str s

/-- `"name"`, `"tag"` and `"parameters"` -/
def name : Text := [0x6E, 0x61, 0x6D, 0x65]
def tag : Text := [0x74, 0x61, 0x67]
def parameters : Text := [0x70, 0x61, 0x72, 0x61, 0x6D, 0x65, 0x74, 0x65, 0x72, 0x73]

/-- The object describes a forager: it has a name; names and tags are strings and parameters have
strings for values, whenever they are an object. -/
structure Describes (ms : Members) : Prop where
  named : ∃ v, (name, v) ∈ ms.toList
  names : ∀ v, (name, v) ∈ ms.toList → IsStr v
  tags : ∀ v, (tag, v) ∈ ms.toList → IsStr v
  settings : ∀ ps, (parameters, .obj ps) ∈ ms.toList → ∀ k v, (k, v) ∈ ps.toList → IsStr v

/-- the members that are strings, with their keys -/
def strings (l : List (Text × Value)) : List (Text × Text) :=
  l.filterMap fun m => match m.2 with
    | .str s => some (m.1, s)
    | _ => none

/-- the last of the strings with the key -/
def last (k : Text) (l : List (Text × Text)) : Option Text := ((l.filter fun m => m.1 = k).map (·.2)).getLast?

/-- the members of a value, if it is an object -/
def membersOf : Value → List (Text × Value)
  | .obj ms => ms.toList
  | _ => []

/-- all parameters that the object sets, in order -/
def settings (ms : Members) : List (Text × Text) :=
  (ms.toList.filter fun m => m.1 = parameters).flatMap fun m => strings (membersOf m.2)

/-- no character beyond ASCII is written with `\u` -/
def NoWide (x : Text) : Prop := ∀ h n, Hex4 h n → (0x5C :: 0x75 :: h) <:+: x → n < 0x80

/-- the string has only ASCII characters -/
def Ascii (s : Text) : Prop := ∀ c ∈ s, c < 0x80

/-- what the object says of a forager has only ASCII characters -/
structure AsciiLabel (ms : Members) : Prop where
  name : ∀ s, (name, .str s) ∈ ms.toList → Ascii s
  tag : ∀ s, (tag, .str s) ∈ ms.toList → Ascii s
  settings : ∀ k s, (k, s) ∈ Member.settings ms → Ascii k ∧ Ascii s

end Verif.Member
