import Verif.Text.Spec
import Verif.Text.Words
/-
  Specification: JSON values, the texts that denote them (RFC 8259), and the names under
  which the parts of a document are indexed.

  Nothing here refers to how documents are stored.
-/
namespace Verif.Json
open Verif.Text

mutual
/-- A JSON value.  Strings and keys are byte strings.  Of a number there is the pattern of the
double and what is printed of it with six decimals: its sign and its number of millionths. -/
inductive Value
  | null
  | bool (b : Bool)
  | num (v : Int) (neg : Bool) (millionths : Nat)
  | str (s : Text)
  | arr (es : Elems)
  | obj (ms : Members)
/-- the elements of an array -/
inductive Elems
  | nil
  | cons (v : Value) (es : Elems)
/-- the members of an object, in order -/
inductive Members
  | nil
  | cons (k : Text) (v : Value) (ms : Members)
end

def Elems.toList : Elems → List Value
  | .nil => []
  | .cons v es => v :: es.toList

def Members.toList : Members → List (Text × Value)
  | .nil => []
  | .cons k v ms => (k, v) :: ms.toList

/-! ### the grammar -/

/-- RFC 8259, 2: blanks, tabs, line feeds and carriage returns -/
def Space (b : UInt8) : Prop := b = 0x20 ∨ b = 0x09 ∨ b = 0x0A ∨ b = 0x0D

def Spaces (s : Text) : Prop := ∀ b ∈ s, Space b

/-- the value of a digit -/
def Digit (b : UInt8) : Prop := 0x30 ≤ b ∧ b ≤ 0x39

/-- the number that decimal digits write -/
def value (ds : Text) : Nat := ds.foldl (fun a d => 10 * a + (d.toNat - 48)) 0

/-- RFC 8259, 6, without exponents: `m` millionths -/
structure Number (x : Text) (neg : Bool) (m : Nat) : Prop where
  intro ::
  parts : ∃ w f : Text, (∀ d ∈ w, Digit d) ∧ (∀ d ∈ f, Digit d) ∧ w ≠ [] ∧
    (w.head? = some 0x30 → w = [0x30]) ∧
    x = (if neg then [0x2D] else []) ++ w ++ (if f = [] then [] else 0x2E :: f) ∧
    value (w ++ f) * 10 ^ 6 = m * 10 ^ f.length

/-- the value of a hexadecimal digit -/
def hex (b : UInt8) : Option Nat :=
  if 0x30 ≤ b ∧ b ≤ 0x39 then some (b.toNat - 0x30)
  else if 0x41 ≤ b ∧ b ≤ 0x46 then some (b.toNat - 0x41 + 10)
  else if 0x61 ≤ b ∧ b ≤ 0x66 then some (b.toNat - 0x61 + 10)
  else none

/-- four hexadecimal digits -/
def Hex4 (x : Text) (n : Nat) : Prop := ∃ a b c d i j k l, x = [a, b, c, d] ∧ hex a = some i ∧
  hex b = some j ∧ hex c = some k ∧ hex d = some l ∧ n = ((i * 16 + j) * 16 + k) * 16 + l

/-- RFC 8259, 7: the two-character escapes -/
def escaped : UInt8 → Option UInt8
  | 0x22 => some 0x22
  | 0x5C => some 0x5C
  | 0x2F => some 0x2F
  | 0x62 => some 0x08
  | 0x66 => some 0x0C
  | 0x6E => some 0x0A
  | 0x72 => some 0x0D
  | 0x74 => some 0x09
  | _ => none

/-- RFC 8259, 7: what is between the quotation marks, and the string it writes -/
inductive Chars : Text → Text → Prop
  | nil : Chars [] []
  | plain (c : UInt8) {x s : Text} : 0x20 ≤ c → c ≠ 0x22 → c ≠ 0x5C → Chars x s → Chars (c :: x) (c :: s)
  | short {e c : UInt8} {x s : Text} : escaped e = some c → Chars x s → Chars (0x5C :: e :: x) (c :: s)
  | code {h : Text} {n : Nat} {x s : Text} : Hex4 h n → n < 0xD800 ∨ 0xDFFF < n → Chars x s →
      Chars (0x5C :: 0x75 :: (h ++ x)) (encode n ++ s)
  | pair {h l : Text} {n m : Nat} {x s : Text} : Hex4 h n → Hex4 l m → 0xD800 ≤ n → n < 0xDC00 →
      0xDC00 ≤ m → m < 0xE000 → Chars x s →
      Chars (0x5C :: 0x75 :: (h ++ 0x5C :: 0x75 :: (l ++ x)))
        (encode (0x10000 + (n - 0xD800) * 0x400 + (m - 0xDC00)) ++ s)

mutual
/-- RFC 8259, 3-7: the text denotes the value -/
inductive Denotes : Text → Value → Prop
  | null : Denotes [0x6E, 0x75, 0x6C, 0x6C] .null
  | true : Denotes [0x74, 0x72, 0x75, 0x65] (.bool true)
  | false : Denotes [0x66, 0x61, 0x6C, 0x73, 0x65] (.bool false)
  | num {x v neg m} : Number x neg m → Denotes x (.num v neg m)
  | str {x s} : Chars x s → Denotes (0x22 :: (x ++ [0x22])) (.str s)
  | arr0 {a} : Spaces a → Denotes (0x5B :: (a ++ [0x5D])) (.arr .nil)
  | arr {x es} : Items x es → Denotes (0x5B :: (x ++ [0x5D])) (.arr es)
  | obj0 {a} : Spaces a → Denotes (0x7B :: (a ++ [0x7D])) (.obj .nil)
  | obj {x ms} : Pairs x ms → Denotes (0x7B :: (x ++ [0x7D])) (.obj ms)
/-- values with commas between -/
inductive Items : Text → Elems → Prop
  | one {a x b v} : Spaces a → Denotes x v → Spaces b → Items (a ++ x ++ b) (.cons v .nil)
  | more {a x b v y es} : Spaces a → Denotes x v → Spaces b → Items y es →
      Items (a ++ x ++ b ++ 0x2C :: y) (.cons v es)
/-- members with commas between -/
inductive Pairs : Text → Members → Prop
  | one {a k b c x d key v} : Spaces a → Chars k key → Spaces b → Spaces c → Denotes x v → Spaces d →
      Pairs (a ++ 0x22 :: (k ++ [0x22]) ++ b ++ 0x3A :: (c ++ x ++ d)) (.cons key v .nil)
  | more {a k b c x d key v y ms} : Spaces a → Chars k key → Spaces b → Spaces c → Denotes x v →
      Spaces d → Pairs y ms →
      Pairs (a ++ 0x22 :: (k ++ [0x22]) ++ b ++ 0x3A :: (c ++ x ++ d ++ 0x2C :: y)) (.cons key v ms)
end

/-- RFC 8259, 2: a JSON text, with white space around it -/
def IsJson (x : Text) (v : Value) : Prop :=
  ∃ a y b, x = a ++ y ++ b ∧ Spaces a ∧ Denotes y v ∧ Spaces b

/-! ### names of the parts of a document -/

/-- the value an annotation carries (src/core.h 30 `fval`): not a number, a truth value, the
double of a number, or the size of an array -/
inductive Mark
  | nan
  | zero
  | one
  | double (v : Int)
  | size (n : Nat)
deriving DecidableEq

def markOf : Value → Mark
  | .null => .nan
  | .bool true => .one
  | .bool false => .zero
  | .num v _ _ => .double v
  | .str _ => .zero
  | .arr es => .size es.toList.length
  | .obj _ => .zero

/-- decimal digits of a number -/
def decimalAux : Nat → Nat → Text
  | 0, _ => []
  | f + 1, n => if n < 10 then [UInt8.ofNat (48 + n)] else decimalAux f (n / 10) ++ [UInt8.ofNat (48 + n % 10)]

def decimal (n : Nat) : Text := decimalAux (n + 1) n

/-- `Tagged path v tag m w`: in the document `v` at the path `path`, the part `w` is named
`tag` with the value `m`.  Every value is named by its path, in which an element of an array
adds its index in brackets and a member its key, each with a colon; a member is named by its
key alone as well. -/
inductive Tagged : Text → Value → Text → Mark → Value → Prop
  | self (path v) : Tagged path v path (markOf v) v
  | element {path es i w tag m u} : es.toList[i]? = some w →
      Tagged (path ++ 0x5B :: (decimal i ++ [0x5D, 0x3A])) w tag m u → Tagged path (.arr es) tag m u
  | member {path ms k w tag m u} : (k, w) ∈ ms.toList →
      Tagged (path ++ k ++ [0x3A]) w tag m u → Tagged path (.obj ms) tag m u
  | key {path ms k w} : (k, w) ∈ ms.toList → Tagged path (.obj ms) (k ++ [0x3A]) .zero w

/-! ### documents that are kept -/

/-- A string without control characters, without the first ten noncharacters of U+FDD0 and
following, and with every UTF-8 sequence complete. -/
structure Plain (s : Text) : Prop where
  printing : ∀ b ∈ s, (0x20 : UInt8) ≤ b
  free : ∀ t, (0x90 : UInt8) ≤ t → t ≤ 0x99 → ¬ [0xEF, 0xB7, t] <:+: s
  complete : Complete s

mutual
/-- all strings and keys of the value are plain -/
def Value.Fit : Value → Prop
  | .str s => Plain s
  | .arr es => es.Fit
  | .obj ms => ms.Fit
  | _ => True
def Elems.Fit : Elems → Prop
  | .nil => True
  | .cons v es => v.Fit ∧ es.Fit
def Members.Fit : Members → Prop
  | .nil => True
  | .cons k v ms => Plain k ∧ v.Fit ∧ ms.Fit
end

end Verif.Json
